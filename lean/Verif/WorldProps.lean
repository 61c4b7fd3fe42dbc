import Verif.WorldLemmas
import Verif.EndAF

/-! # A table from its threads to its bytes

The examples are at the end of `WorldEnd.lean`.
-/

namespace Dysco.World
open Col Multi StMan End BytePacker Layout

variable {κ : Type} {c : Nat} {α : Fin c → Type} {P : (i : Fin c) → Params (DataRow (α i)) κ}

/-- What the threads of all columns write to the file, for any schedule: the manager is as after a list of operations on
the blocks of a new table, which contains for every column the encoded blocks of that column in the order in which its
threads wrote them. Before the rows per block are known nothing is written. -/
theorem world_inv (hn : ∀ i, 0 < (P i).threads) {K : Codecs α} {k : κ} {nRow : Nat} {mt : Man}
    {prog : List (MOp fun i => DataRow (α i))} {w : WState P} (h : WReach K (winitial P k nRow mt prog) w) :
    WInv K k nRow mt prog w := by
  induction h with
  | start => exact ⟨⟨[], rfl⟩, .inl ⟨.inl rfl, rfl, fun _ => rfl⟩⟩
  | step _ e ih => exact winv_step hn ih e

/-! ## The number of blocks -/

theorem mclient_blocks {W : Fin c → Type} {P : (i : Fin c) → Params (W i) κ} {S S' : MState P}
    {junk : (i : Fin c) → Nat → W i} (hp : Place S) (e : S.client junk = some S') : S'.nBlocks = S.nBlocks := by
  unfold MState.client at e
  unfold Place at hp
  cases hpc : S.pc with
  | idle =>
    simp only [hpc] at e
    cases ht : S.todo with
    | nil => rw [ht] at e; cases e
    | cons op rest =>
      rw [ht] at e
      cases op with
      | put i row v =>
        simp only at e
        split at e
        · injection e with e; subst e; rfl
        · rename_i hs
          injection e with e; subst e
          exact (put_frame (Bool.eq_false_iff.mpr hs) []).2.nBlocks
      | get i row =>
        injection e with e; subst e
        exact (get_frame (S.view i) row []).2.nBlocks
      | close => injection e with e; subst e; rfl
  | call i =>
    simp only [hpc, Option.map_eq_some_iff] at e
    rw [hpc] at hp
    obtain ⟨s, e1, rfl⟩ := e
    exact (client_frame (s := S.view i) (working_inCall hp.2) e1 []).2.nBlocks
  | init i row v k =>
    simp only [hpc] at e
    split at e
    · split at e <;> (injection e with e; subst e; rfl)
    · injection e with e; subst e; rfl
  | header i row v =>
    rw [hpc] at hp
    simp only [hpc] at e
    injection e with e; subst e
    refine (put_frame (p := P i) (s := S.view i) (row := row) (v := v) ?_ []).2.nBlocks
    have : ((S.view i).rowsPerBlock == 0) = false := by
      show (S.rowsPerBlock == 0) = false
      rw [hp.1]
      simpa using hp.2.1
    unfold startsBlocks
    rw [this]; rfl
  | close k =>
    simp only [hpc] at e
    split at e
    · rename_i h
      injection e with e; subst e
      exact (close_frame (p := P ⟨k, h⟩) (S.view ⟨k, h⟩) []).2.nBlocks
    · injection e with e; subst e; rfl
  | closing i =>
    simp only [hpc, Option.map_eq_some_iff] at e
    rw [hpc] at hp
    obtain ⟨s, e1, rfl⟩ := e
    exact (client_frame (s := S.view i) (stopping_inCall hp.1) e1 []).2.nBlocks
  | closed | failed | unsupported => simp only [hpc] at e; cases e

theorem thread_blocks {V : Type} {n : Nat} {s s' : State V κ n} {t : Fin n} (e : threadStep s t = some s') :
    s'.nBlocks = match s.threads t with
      | .encode b _ => if s.nBlocks ≤ b then b + 1 else s.nBlocks
      | _ => s.nBlocks := by
  unfold threadStep at e
  match hpc : s.threads t with
  | .head =>
    simp only [hpc] at e ⊢
    split at e
    · injection e with e; subst e; rfl
    · injection e with e; subst e
      unfold State.seek
      split <;> rfl
  | .woken =>
    simp only [hpc] at e ⊢
    injection e with e; subst e
    unfold State.seek
    split <;> rfl
  | .encode b r =>
    simp only [hpc] at e ⊢
    split at e
    · cases e
    · injection e with e; subst e; rfl
  | .written b =>
    simp only [hpc] at e ⊢
    injection e with e; subst e; rfl
  | .wait | .done => simp only [hpc] at e; cases e

theorem read_blocks (m : Man) (b i : Nat) (d : Mem 8) : (blockStep m (.read b i d)).nBlocks = m.nBlocks := by
  simp only [blockStep]
  split
  · rfl
  · split
    · unfold readCompressedData
      simp only
      split
      · split <;> rfl
      · rfl
    · rfl

theorem header_blocks (rows ants : Nat) (m : Man) : (initializeRowsPerBlock rows ants true m).1.nBlocks = m.nBlocks := by
  unfold initializeRowsPerBlock
  split
  · rfl
  · simp only [if_true]
    unfold writeHeader
    split <;> rfl

/-- The number of blocks by which the threads and the client decide is that of the manager. -/
theorem blocks_agree (hn : ∀ i, 0 < (P i).threads) {K : Codecs α} {k : κ} {nRow : Nat} {mt : Man}
    {prog : List (MOp fun i => DataRow (α i))} {w : WState P} (h : WReach K (winitial P k nRow mt prog) w) :
    w.cols.nBlocks = w.man.nBlocks := by
  induction h with
  | start =>
    show 0 = (prepare (create nRow mt)).1.nBlocks
    unfold prepare
    split
    · rfl
    · simp only
      split
      · unfold initializeRowsPerBlock
        split <;> rfl
      · rfl
  | @step w w' l hw e ih =>
    obtain ⟨e1, e2⟩ := e
    have hp := (good_reachable hn (world_inv hn hw).reach).place
    cases l with
    | client junk =>
      rw [mclient_blocks hp e1, ih]
      unfold Effect at e2
      simp only at e2
      split at e2
      · obtain ⟨a, -, e2⟩ := e2
        rw [e2, header_blocks]
      · split at e2
        · obtain ⟨dest, e2⟩ := e2
          rw [e2, read_blocks]
        · rw [e2]
      · rw [e2]
    | thread i t =>
      simp only [mstep, Option.map_eq_some_iff] at e1
      obtain ⟨s, e1, e3⟩ := e1
      have h1 := thread_blocks e1
      have h2 : w'.cols.nBlocks = s.nBlocks := by rw [← e3]; rfl
      unfold Effect at e2
      simp only at e2
      have hv : (w.cols.view i).threads t = (w.cols.cols i).threads t := rfl
      have hvb : (w.cols.view i).nBlocks = w.cols.nBlocks := rfl
      rw [hv, hvb] at h1
      rw [h2, h1]
      split at e2
      · rename_i b r hx
        obtain ⟨col, d, c1, -, c3⟩ := e2
        rw [hx, c3, ih]
        simp only [blockStep, c1]
        unfold writeCompressedData
        simp only
        split <;> split <;> rfl
      · rename_i hx
        rw [e2, ← ih]
        split
        · rename_i b r hy
          exact absurd hy (hx b r)
        · rfl
    | spuriousThread i t =>
      simp only [mstep, step, Option.map_some] at e1
      injection e1 with e1
      rw [show w'.man = w.man from e2, ← ih, ← e1]; rfl
    | spuriousClient i =>
      simp only [mstep, step, Option.map_some] at e1
      injection e1 with e1
      rw [show w'.man = w.man from e2, ← ih, ← e1]; rfl

/-! ## A table that is written in order -/

/-- `n` is one more than the largest antenna of the first `m` rows. -/
def AntennaCount (m : Nat) (antOf : Nat → Nat × Nat) (n : Nat) : Prop :=
  (∀ r, r < m → (antOf r).1 < n ∧ (antOf r).2 < n) ∧ ∃ r, r < m ∧ (n = (antOf r).1 + 1 ∨ n = (antOf r).2 + 1)

/-- A client writes the rows `0`, …, `R - 1` of every column of a new table, each column in order, and closes
the table. Blocks are the groups of `rows` rows with the same time, field and data description, of which the last may have
fewer rows, and there are at least two blocks. -/
structure WholeTable (P : (i : Fin c) → Params (DataRow (α i)) κ) (rows R : Nat)
    (v : (i : Fin c) → Nat → DataRow (α i)) (antOf : Nat → Nat × Nat)
    (prog : List (MOp fun i => DataRow (α i))) : Prop where
  threads : ∀ i, 0 < (P i).threads
  maxCache : ∀ i, 1 ≤ (P i).maxCache
  pos : 0 < rows
  more : rows < R
  small : R ≤ noBlock
  same : ∀ i r, 0 < r → r < rows → (P i).differs ((P i).key r) ((P i).key 0) = false
  diff : ∀ i, (P i).differs ((P i).key rows) ((P i).key 0) = true
  ants : ∀ i r, r < R → ((v i r).antenna1, (v i r).antenna2) = antOf r
  whole : ∀ i, Whole rows (v i) R 0 (ops i prog)

/-- The layout is that for the rows of the first block and their antennas. -/
theorem laid_antennas {rows R : Nat} {v : (i : Fin c) → Nat → DataRow (α i)} {antOf : Nat → Nat × Nat}
    {prog : List (MOp fun i => DataRow (α i))} (h : WholeTable P rows R v antOf prog) {k : κ} {m n : Nat}
    (hl : LaidOut k prog P m n) : m = rows ∧ AntennaCount rows antOf n := by
  obtain ⟨S, hr, i, row, x, a, hpc, rfl, ha, rfl⟩ := hl
  have hmore := h.more
  have hrpb := whole_rpb h.threads h.pos (by omega) h.small h.same (fun i _ => h.diff i) (.inr ⟨rfl, hmore⟩)
    h.whole hr
  have hg := good_reachable h.threads hr
  have hp := hg.place
  unfold Place at hp
  rw [hpc] at hp
  obtain ⟨p1, p2, p3⟩ := hp
  have hm : S.rowsPerBlock = rows := by
    rcases hrpb with h0 | h0
    · exact absurd (p1.symm.trans h0) p2
    · exact h0
  refine ⟨hm, ?_⟩
  obtain ⟨done, hd⟩ := hg.cols i
  obtain ⟨tail, hsp, -⟩ := hd.split
  have hwi := h.whole i
  rw [← hsp] at hwi
  have hok := whole_ok (h.threads i) h.pos (by omega) h.small (h.same i) (fun _ => h.diff i) (.inr ⟨rfl, hmore⟩)
    (alone_whole hd hrpb hwi) (hd.reach _)
  unfold WholeOK at hok
  rw [show (proj S i (left S i ++ tail)).client = .idle from (p3 i).1] at hok
  obtain ⟨r, w1, w2, w3⟩ := hok
  have hrp : (proj S i (left S i ++ tail)).rowsPerBlock = rows := by
    show (if uninit S i then 0 else S.rowsPerBlock) = rows
    have : uninit S i = false := by unfold uninit; rw [hpc]
    rw [this, ← hm]; rfl
  have hk : Known rows (v i) R r (proj S i (left S i ++ tail)) := by
    rcases w3 with w3 | w3
    · have := w3.rpb
      rw [hrp] at this
      exact absurd this (by have := h.pos; omega)
    · exact w3
  have hrow : r = rows := by
    have e : (proj S i (left S i ++ tail)).todo = .put row x :: (ops i S.todo ++ tail) := by
      show left S i ++ tail = _
      unfold left
      rw [hpc]
      simp
    rw [e] at w1
    simp only [Whole] at w1
    omega
  subst hrow
  obtain ⟨-, -, f, -⟩ := hk.some h.pos
  have h0 : (r - 1) / r = 0 := Nat.div_eq_of_lt (by have := h.pos; omega)
  rw [h0, Nat.zero_mul, Nat.sub_zero] at f
  have fb : (proj S i (left S i ++ tail)).buffer = (S.cols i).buffer := rfl
  rw [fb] at f
  have hlen : (antennas (S.cols i).buffer).len = r := le_antisymm f.len f.count
  have hget : ∀ j, j < r → ((antennas (S.cols i).buffer).get j).antenna1 = (antOf j).1 ∧
      ((antennas (S.cols i).buffer).get j).antenna2 = (antOf j).2 := by
    intro j hj
    have e := f.get j hj
    rw [Nat.zero_mul, Nat.zero_add] at e
    have ea := h.ants i j (by omega)
    simp only [antennas, e]
    rw [← ea]
    exact ⟨rfl, rfl⟩
  obtain ⟨a', a1, a2, a3⟩ := TimeBlock.maxAntennaIndex_spec (antennas (S.cols i).buffer)
  rw [ha] at a1
  injection a1 with a1
  subst a1
  rw [hlen] at a2 a3
  refine ⟨fun j hj => ?_, ?_⟩
  · have := a2 j hj
    rw [(hget j hj).1, (hget j hj).2] at this
    omega
  · rcases a3 with a3 | ⟨j, hj, a3⟩
    · refine ⟨0, h.pos, .inl ?_⟩
      have := (a2 0 h.pos).1
      rw [(hget 0 h.pos).1] at this
      omega
    · rw [(hget j hj).1, (hget j hj).2] at a3
      exact ⟨j, hj, by omega⟩

theorem AntennaCount.unique {m n n' : Nat} {antOf : Nat → Nat × Nat} (h : AntennaCount m antOf n)
    (h' : AntennaCount m antOf n') : n = n' := by
  obtain ⟨a, r, hr, ha⟩ := h
  obtain ⟨a', r', hr', ha'⟩ := h'
  have := a r' hr'
  have := a' r hr
  omega

/-- Every column is as if it had been written alone. -/
theorem table_run {rows R : Nat} {v : (i : Fin c) → Nat → DataRow (α i)} {antOf : Nat → Nat × Nat}
    {prog : List (MOp fun i => DataRow (α i))} (h : WholeTable P rows R v antOf prog) {k : κ} {S : MState P}
    (hr : MReachable (minitial P k 0 (fun _ _ => none) 0 prog) S) (hcl : S.pc = .closed) (i : Fin c) :
    ∃ s, RunOf (P i) rows R (v i) s ∧ s.writes = (S.cols i).writes ∧ S.rowsPerBlock = rows := by
  have hmore := h.more
  have hrpb := whole_rpb h.threads h.pos (by omega) h.small h.same (fun i _ => h.diff i) (.inr ⟨rfl, hmore⟩)
    h.whole hr
  have hg := good_reachable h.threads hr
  have hp := hg.place
  unfold Place at hp
  rw [hcl] at hp
  obtain ⟨done, hd⟩ := hg.cols i
  obtain ⟨tail, hsp, -⟩ := hd.split
  have hwi := h.whole i
  rw [← hsp] at hwi
  have hw := alone_whole hd hrpb hwi
  refine ⟨proj S i (left S i ++ tail), ⟨h.threads i, h.maxCache i, h.small, h.same i,
    fun _ => h.diff i, ⟨0, 0, k, _, .inr ⟨rfl, hmore⟩, hw, hd.reach _⟩, hp i⟩, rfl, ?_⟩
  have hok := whole_ok (h.threads i) h.pos (by omega) h.small (h.same i) (fun _ => h.diff i) (.inr ⟨rfl, hmore⟩)
    hw (hd.reach _)
  unfold WholeOK at hok
  rw [show (proj S i (left S i ++ tail)).client = .closed from hp i] at hok
  have h1 := hok.1
  have : uninit S i = false := by unfold uninit; rw [hcl]
  have h2 : (proj S i (left S i ++ tail)).rowsPerBlock = S.rowsPerBlock := by
    show (if uninit S i then 0 else S.rowsPerBlock) = _
    rw [this]; rfl
  exact h2.symm.trans h1

theorem ofBlock_mem {V : Type} {l : List (Nat × Rows V)} {b : Nat} {r : Rows V} (h : (b, r) ∈ l) :
    ofBlock l b ≠ [] := by
  intro hx
  unfold ofBlock at hx
  simp at hx
  exact hx b r h rfl

/-- Nothing is written beyond the last block. -/
theorem _root_.Dysco.End.RunOf.beyond {V : Type} {p : Col.Params V κ} {rows R : Nat} {v : Nat → V}
    {s : Col.State V κ p.threads} (h : RunOf p rows R v s) (hr0 : 0 < rows) (hR : 0 < R) {b : Nat} {r : Rows V}
    (hb : (b, r) ∈ s.writes) : b * rows < R := by
  obtain ⟨rows0, nBlocks, k, todo, hrows, hw, hreach⟩ := h.reach
  obtain ⟨_, _, _, hall⟩ := Col.whole_column h.threads h.maxCache hr0 hR h.small
    h.same h.diff hrows hw hreach
  by_contra hx
  have hn := (hall h.closed b).2 (by omega)
  have hf := (initial_reachable_inv h.threads hreach).core.file b
  rw [hn] at hf
  have : (ofBlock s.writes b).getLast? ≠ none := by
    rw [ne_eq, List.getLast?_eq_none_iff]
    exact ofBlock_mem hb
  cases hl : (ofBlock s.writes b).getLast? with
  | none => exact this hl
  | some x => rw [hl] at hf; cases hf

theorem forall₂_left_mem {A B : Type} {R : A → B → Prop} {l : List A} {l' : List B} (h : List.Forall₂ R l l') {x : A}
    (hx : x ∈ l) : ∃ y ∈ l', R x y := by
  induction h with
  | nil => cases hx
  | cons h1 _ ih =>
    rcases List.mem_cons.mp hx with rfl | hx
    · exact ⟨_, List.mem_cons_self, h1⟩
    · obtain ⟨y, hy, hr⟩ := ih hx
      exact ⟨y, List.mem_cons_of_mem _ hy, hr⟩

/-- The whole table after it was closed, for any schedule of the client and all threads: the file is the one of a list
of operations of which `end_to_end` holds, for every column at once. -/
theorem world_closed {rows R ants : Nat} {v : (i : Fin c) → Nat → DataRow (α i)} {antOf : Nat → Nat × Nat}
    {prog : List (MOp fun i => DataRow (α i))} (hT : WholeTable P rows R v antOf prog) {mt : Man}
    (hants : AntennaCount rows antOf ants) (hnew : NewTable rows ants mt) (hc : mt.columns.length = c) (hc0 : 0 < c)
    {K : Codecs α} {k : κ} {nRow : Nat} {w : WState P} (h : WReach K (winitial P k nRow mt prog) w)
    (hcl : w.cols.pc = .closed) :
    ∃ ops, w.man = ops.foldl blockStep (newTable nRow rows ants mt) ∧
      (w.man.nBlocks = 0 ∨ ∃ d, .write (w.man.nBlocks - 1) (mt.columns.length - 1) d ∈ ops) ∧
      ∀ i : Fin c, ∃ s, RunOf (P i) rows R (v i) s ∧ ∀ col, (newTable nRow rows ants mt).columns[i.val]? = some col →
        Implements (K i rows col) col rows i ops s.writes := by
  have hi := world_inv hT.threads h
  obtain ⟨-, -, -, hrpb⟩ := table_run hT hi.reach hcl ⟨0, hc0⟩
  rcases hi.bytes with ⟨hb | hb, -⟩ | ⟨-, -, ants', ops, hl, hm, himp⟩
  · exact absurd (hrpb.symm.trans hb) (by have := hT.pos; omega)
  · rcases hb with ⟨_, _, _, _, hb⟩ | ⟨_, _, _, hb⟩ <;> (rw [hcl] at hb; cases hb)
  obtain ⟨-, ha⟩ := laid_antennas hT hl
  obtain rfl := hants.unique ha
  rw [hrpb] at hm himp
  have hF := newTable_fresh (nRow := nRow) hnew
  obtain ⟨f1, -, f3, -⟩ := newTable_fields (nRow := nRow) hnew
  have hlen : (newTable nRow rows ants mt).columns.length = c := by
    rw [f3, (layout_spec hnew.rowCount.2 hnew.antCount (configured mt mt.columns) 0 (by simpa using hnew.total)).2.2.1, ← hc]
    simp [configured]
  refine ⟨ops, hm, ?_, fun i => ?_⟩
  · by_cases h0 : w.man.nBlocks = 0
    · exact .inl h0
    right
    obtain ⟨hh, hcol⟩ := run_holds hF.holds ops
    rw [← hm] at hh hcol
    obtain ⟨i, d, hi1, hi2⟩ := hh.last h0
    rw [hcol, hlen] at hi1
    -- some column wrote the last block, so it is a block of the table, and the last column wrote it too
    have hex : ∃ d, .write (w.man.nBlocks - 1) i d ∈ ops := by
      by_contra hx
      push Not at hx
      rw [store_unwritten _ ops _ _ _ hx] at hi2
      cases hi2
    obtain ⟨d', hd'⟩ := hex
    have hcolumn : ∀ j, j < c → ∃ col, (newTable nRow rows ants mt).columns[j]? = some col := fun j hj =>
      ⟨_, List.getElem?_eq_getElem (by rw [hlen]; exact hj)⟩
    obtain ⟨col, hcl1⟩ := hcolumn i hi1
    obtain ⟨s, s1, s2, -⟩ := table_run hT hi.reach hcl ⟨i, hi1⟩
    have him := himp ⟨i, hi1⟩ col hcl1
    unfold Implements at him
    obtain ⟨y, hy, hy1, -⟩ := forall₂_left_mem him (mem_colWrites.mpr hd')
    rw [← s2] at hy
    have hq := s1.beyond hT.pos (by have := hT.more; omega) (b := y.1) (r := y.2) hy
    rw [← hy1] at hq
    obtain ⟨coll, hcl2⟩ := hcolumn (c - 1) (by omega)
    obtain ⟨sl, l1, l2, -⟩ := table_run hT hi.reach hcl ⟨c - 1, by omega⟩
    have himl := himp ⟨c - 1, by omega⟩ coll hcl2
    rw [← l2] at himl
    obtain ⟨rws, o1, -⟩ := l1.written hT.pos hq
    obtain ⟨before, dl, after, e1, -⟩ := single_write himl o1
    refine ⟨dl, ?_⟩
    rw [hc, e1]
    simp
  · obtain ⟨s, s1, s2, -⟩ := table_run hT hi.reach hcl i
    refine ⟨s, s1, fun col hcol => ?_⟩
    have := himp i col hcol
    rw [f1, ← s2] at this
    exact this

end Dysco.World
