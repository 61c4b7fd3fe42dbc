import Verif.MStmtModel
import Verif.StmtProps
import Verif.MultiProps

/-!
# Lemmas for `MStmtProps`

Each statement of `MStmtModel` is a step of `MultiModel` or none.
-/

namespace Dysco.MStmt
open Col Multi Stmt
variable {V K : Type} {n c : Nat} {W : Fin c → Type}

/-! ## Where the client is -/

theorem callPC_abs {P : (i : Fin c) → Params (W i) K} (S : MState P) (i : Fin c) (f : SState (W i) K (P i).threads)
    (t : Fin (P i).threads → ThreadPC (W i)) : callPC i f.client = (S.enter i (f.abs t)).pc := by
  have h : (f.abs t).client = if f.pendC then f.client.abs.wake else f.client.abs := rfl
  unfold MState.enter
  simp only [h]
  cases f.pendC <;> cases f.client <;> first
    | rfl
    | (rename_i k; cases k <;> rfl)

/-- `closePC` for the places of `ColumnModel`. -/
def closeAbs (i : Fin c) : ClientPC V → MPC W
  | .closed => .close (i + 1)
  | .failed => .failed
  | .unsupported => .unsupported
  | _ => .closing i

theorem closePC_abs (i : Fin c) (f : SState V K n) (t : Fin n → ThreadPC V) :
    (closePC i f.client : MPC W) = closeAbs i (f.abs t).client := by
  have h : (f.abs t).client = if f.pendC then f.client.abs.wake else f.client.abs := rfl
  rw [h]
  cases f.pendC <;> cases f.client <;> first
    | rfl
    | (rename_i k; cases k <;> rfl)

theorem idle_of_abs {f : SState V K n} {t : Fin n → ThreadPC V} (h : (f.abs t).client = .idle) : f.client = .idle := by
  have h' : (if f.pendC then f.client.abs.wake else f.client.abs) = .idle := h
  cases hc : f.client <;> rw [hc] at h' <;> cases hp : f.pendC <;> rw [hp] at h' <;> first
    | rfl
    | cases h'
    | (rename_i k; cases k <;> cases h')

/-! ## A call -/

section call
variable {p : Params V K} {F : SState V K p.threads} {t : Fin p.threads → ThreadPC V} {f : Nat → Option (Rows V)}

theorem call_todo (s : State V K n) (op : Op V) : (State.call p s op).todo = s.todo := by
  have ha : ∀ (s : State V K n) (k : Next V), (s.access k).todo = s.todo := fun s k => (access_shared s k).todo
  cases op with
  | put row v =>
    simp only [State.call, State.put]
    repeat' split
    all_goals first | rfl | exact ha _ _
  | get row =>
    simp only [State.call, State.get]
    repeat' split
    all_goals rfl
  | close => simp only [State.call]; split <;> rfl
  | addColumn => simp only [State.call]; split <;> rfl
  | otherInit rows =>
    simp only [State.call]
    repeat' split
    all_goals rfl

theorem sim_call (h : OK p F) (ht : Thr F t) (hI : Core p f (F.abs t)) (hoff : F.d.rowsPerBlock = 0 → F.d.started = false)
    (hc : F.client = .idle) (hd : F.d.todo = []) {op : Op V} (hs : starts p F.d op = false) (junk : Nat → V) :
    OK p (enterCall p F op) ∧
      ∃ t', State.call p (F.abs t) op = (enterCall p F op).abs t' ∧ Thr (enterCall p F op) t' := by
  let G : SState V K p.threads := { F with d := { F.d with todo := [op] } }
  have hG : OK p G := ⟨h.mt, h.mc, h.tok, by
    have h3 := h.cok
    change COK p { F.d with todo := [op] } F.client
    rw [hc]
    trivial⟩
  have hGI : Core p f (G.abs t) := hI.same ⟨rfl, rfl, rfl, rfl, rfl, rfl, rfl⟩
  have e : G.clientStep p junk = some (enterCall p F op) := by
    have hs' : starts p G.d op = false := by
      have : starts p G.d op = starts p F.d op := by cases op <;> rfl
      rw [this]; exact hs
    unfold SState.clientStep
    rw [show G.client = .idle from hc]
    have ht' : G.d.todo = [op] := rfl
    simp only [ht', hs', Bool.false_eq_true, if_false]
    have : ({ G.d with todo := [], client := .idle } : State V K p.threads) = { F.d with client := .idle } := by
      show ({ F.d with todo := [], client := .idle } : State V K p.threads) = { F.d with client := .idle }
      rw [← hd]
    rw [this]
    rfl
  obtain ⟨h1, h2 | ⟨t', h2, h3⟩⟩ := sim_client hG ht hGI hoff e
  · exfalso
    have h3 := congrArg State.todo h2.1
    change (State.call p { F.d with client := .idle } op).todo = [op] at h3
    rw [call_todo, show ({ F.d with client := .idle } : State V K p.threads).todo = [] from hd] at h3
    cases h3
  · refine ⟨h1, t', ?_, h3⟩
    have hci : (F.abs t).client = .idle := by
      rw [client_abs (by rw [hc]; rfl), hc]
      rfl
    have h4 : step p (G.abs t) (.client junk) = some (State.call p (F.abs t) op) := by
      have h5 := step_call (p := p) hci op [] (F.abs t).rowsPerBlock junk
      have h6 : frame (F.abs t) ([op] ++ []) (F.abs t).rowsPerBlock = G.abs t := rfl
      have h7 : frame (F.abs t) [] (F.abs t).rowsPerBlock = F.abs t := by
        show ({ F.abs t with todo := [], rowsPerBlock := (F.abs t).rowsPerBlock } : State V K p.threads) = F.abs t
        rw [show ([] : List (Op V)) = (F.abs t).todo from hd.symm]
      rw [h6, h7] at h5
      exact h5
    rw [h4] at h2
    injection h2

end call

/-! ## The relation -/

theorem ok_frame {p : Params V K} {F G : SState V K n} (h : OK p F) (hc : G.client = F.client) (ht : G.threads = F.threads)
    (hm : G.mutex = F.mutex) (h1 : G.d.cache = F.d.cache) (h2 : G.d.stop = F.d.stop) (h3 : G.d.current = F.d.current)
    (h4 : G.d.started = F.d.started) (h5 : G.d.rowsPerBlock = F.d.rowsPerBlock ∨ F.client = .idle) : OK p G := by
  refine ⟨fun i => ?_, ?_, fun i => ?_, ?_⟩
  · rw [ht, hm]; exact h.mt i
  · rw [hc, hm]; exact h.mc
  · rw [ht, h1, h2]; exact h.tok i
  · have h6 := h.cok
    rw [hc]
    rcases h5 with h5 | h5
    · cases hx : F.client <;> rw [hx] at h6 <;> simp only [COK, h1, h3, h4, h5] at h6 ⊢ <;> exact h6
    · rw [h5]; trivial

variable {P : (i : Fin c) → Params (W i) K} {k : K} {rows nB : Nat} {file : (i : Fin c) → Nat → Option (Rows (W i))}
  {prog : List (MOp W)}

/-- A bound for the number of statements before the next step of `MultiModel`. -/
def MSState.rank (F : MSState P) : Nat := ∑ i, (F.cols i).rank (P i).maxCache

theorem mrank_set {F F' : MSState P} {i : Fin c} {f : SState (W i) K (P i).threads} (h : F'.cols = (F.set i f).cols) :
    F'.rank + (F.view i).rank (P i).maxCache = F.rank + f.rank (P i).maxCache := by
  have h1 : ∀ j, j ≠ i → (F'.cols j).rank (P j).maxCache = (F.cols j).rank (P j).maxCache := by
    intro j hj
    rw [h]
    simp only [MSState.set, Function.update_of_ne hj]
  have h2 : F'.cols i = f := by rw [h]; simp only [MSState.set, Function.update_self]
  have h3 : (F.view i).rank (P i).maxCache = (F.cols i).rank (P i).maxCache := rfl
  unfold MSState.rank
  rw [h3, ← Finset.add_sum_erase Finset.univ _ (Finset.mem_univ i),
    ← Finset.add_sum_erase Finset.univ (fun j => (F.cols j).rank (P j).maxCache) (Finset.mem_univ i), h2,
    Finset.sum_congr rfl fun j hj => h1 j (Finset.ne_of_mem_erase hj)]
  omega

/-- `S` is the state of `MultiModel` that belongs to `F`. -/
structure MRel (k : K) (rows : Nat) (file : (i : Fin c) → Nat → Option (Rows (W i))) (nB : Nat) (prog : List (MOp W))
    (F : MSState P) (S : MState P) (t : (i : Fin c) → Fin (P i).threads → ThreadPC (W i)) : Prop where
  good : Good k rows file nB prog S
  pc : S.pc = F.pc
  todo : S.todo = F.todo
  rpb : S.rowsPerBlock = F.rowsPerBlock
  nBlocks : S.nBlocks = F.nBlocks
  ok : ∀ i, OK (P i) (F.view i)
  thr : ∀ i, Thr (F.view i) (t i)
  abs : ∀ i, S.view i = (F.view i).abs (t i)

section rel
variable {F F' : MSState P} {S : MState P} {t : (i : Fin c) → Fin (P i).threads → ThreadPC (W i)}

theorem mcore (hn : ∀ i, 0 < (P i).threads) (h : MRel k rows file nB prog F S t) (i : Fin c) :
    Core (P i) (fileAt rows (file i)) ((F.view i).abs (t i)) := by
  obtain ⟨done, hd⟩ := h.good.cols i
  have hi := (initial_reachable_inv (hn i) (hd.reach [])).core
  rw [← h.abs i]
  exact hi.same ⟨rfl, rfl, rfl, rfl, rfl, rfl, rfl⟩

theorem moff (hn : ∀ i, 0 < (P i).threads) (h : MRel k rows file nB prog F S t) (i : Fin c)
    (hr : (F.view i).d.rowsPerBlock = 0 ∨ uninit S i = true) : (F.view i).d.started = false := by
  obtain ⟨done, hd⟩ := h.good.cols i
  have hi := (initial_reachable_inv (hn i) (hd.reach [])).offsets (by
    show (if uninit S i then 0 else S.rowsPerBlock) = 0
    rcases hr with hr | hr
    · rw [h.rpb, show F.rowsPerBlock = 0 from hr]; split <;> rfl
    · rw [hr]; rfl)
  have h1 : (S.view i).started = false := hi
  rw [h.abs i] at h1
  exact h1

theorem mrel_set (h : MRel k rows file nB prog F S t) {i : Fin c} {f' : SState (W i) K (P i).threads}
    {t' : Fin (P i).threads → ThreadPC (W i)} {S' : MState P} (hok : OK (P i) f') (hthr : Thr f' t')
    (hr : f'.d.rowsPerBlock = F.rowsPerBlock) (hl : f'.d.locked = false) (hd : f'.d.todo = [])
    (hF : F'.cols = (F.set i f').cols) (hFn : F'.nBlocks = f'.d.nBlocks) (hFr : F'.rowsPerBlock = F.rowsPerBlock)
    (hg : Good k rows file nB prog S') (hpc : S'.pc = F'.pc) (htodo : S'.todo = F'.todo)
    (hS : S'.rowsPerBlock = S.rowsPerBlock) (hSn : S'.nBlocks = f'.d.nBlocks) (hSv : ∀ j, j ≠ i → S'.cols j = S.cols j)
    (hSi : S'.view i = f'.abs t') : MRel k rows file nB prog F' S' (Function.update t i t') := by
  have hvi : F'.view i = f' := by
    have h1 : F'.cols i = f' := by rw [hF]; simp only [MSState.set, Function.update_self]
    unfold MSState.view
    rw [h1, hFn, hFr, ← hr, ← hl, ← hd]
  have hvj : ∀ j, j ≠ i → F'.view j = { F.view j with d := { (F.view j).d with nBlocks := f'.d.nBlocks } } := by
    intro j hj
    have h1 : F'.cols j = F.cols j := by rw [hF]; simp only [MSState.set, Function.update_of_ne hj]
    unfold MSState.view
    rw [h1, hFn, hFr]
  refine ⟨hg, hpc, htodo, by rw [hS, hFr]; exact h.rpb, by rw [hSn, hFn], fun j => ?_, fun j => ?_, fun j => ?_⟩
  · by_cases hj : j = i
    · subst hj; rw [hvi]; exact hok
    · rw [hvj j hj]; exact ok_frame (h.ok j) rfl rfl rfl rfl rfl rfl rfl (.inl rfl)
  · by_cases hj : j = i
    · subst hj; rw [hvi, Function.update_self]; exact hthr
    · rw [hvj j hj, Function.update_of_ne hj]; exact h.thr j
  · by_cases hj : j = i
    · subst hj; rw [hvi, Function.update_self]; exact hSi
    · rw [hvj j hj, Function.update_of_ne hj]
      have h1 : S'.view j = { S.view j with nBlocks := f'.d.nBlocks } := by
        unfold MState.view
        rw [hSv j hj, hS, hSn]
      rw [h1, h.abs j]
      rfl

/-- What a statement is in `MultiModel`: nothing yet, or a step of the same. -/
def MSim (k : K) (rows : Nat) (file : (i : Fin c) → Nat → Option (Rows (W i))) (nB : Nat) (prog : List (MOp W))
    (F F' : MSState P) (S : MState P) (l : MLabel P) : Prop :=
  ∃ S' t', MRel k rows file nB prog F' S' t' ∧
    (S' = S ∧ F'.rank + (if l.real then 1 else 0) ≤ F.rank ∨ mstep S l = some S')

/-- A statement of column `i`. -/
theorem msim_col (hn : ∀ i, 0 < (P i).threads) (h : MRel k rows file nB prog F S t) {i : Fin c}
    {f' : SState (W i) K (P i).threads} {l : Label (W i) (P i).threads} {L : MLabel P} (hreal : L.real = l.real)
    (hok : OK (P i) f') (hsim : Sim (P i) (F.view i) f' (t i) l) (q : SState (W i) K (P i).threads → MPC W)
    (g : State (W i) K (P i).threads → MPC W) (hq : ∀ (f : SState (W i) K (P i).threads) t', q f = g (f.abs t'))
    (hsame : g (S.view i) = S.pc)
    (hL : mstep S L = (step (P i) (S.view i) l).map fun s => { S.set i s with pc := g s })
    (hsh : ∀ s, step (P i) (S.view i) l = some s → s.rowsPerBlock = S.rowsPerBlock ∧ s.locked = false ∧ s.todo = [])
    (hF : F' = { F.set i f' with pc := q f' }) : MSim k rows file nB prog F F' S L := by
  rcases hsim with ⟨h1, h2, h3⟩ | ⟨t', h1, h2⟩
  · rw [← h.abs i] at h1
    have e1 := congrArg State.rowsPerBlock h1
    have e2 := congrArg State.nBlocks h1
    have e3 := congrArg State.locked h1
    have e4 := congrArg State.todo h1
    refine ⟨S, Function.update t i (t i), mrel_set h hok h2 ?_ e3 e4 (by rw [hF]) (by rw [hF]; rfl) (by rw [hF]; rfl)
      h.good ?_ (by rw [hF]; exact h.todo) rfl e2.symm (fun _ _ => rfl) h1.symm, .inl ⟨rfl, ?_⟩⟩
    · rw [← h.rpb]; exact e1
    · rw [hF]
      change S.pc = q f'
      rw [hq f' (t i), h1, hsame]
    · have h4 := mrank_set (F := F) (F' := F') (i := i) (f := f') (by rw [hF])
      rw [hreal]
      omega
  · rw [← h.abs i] at h1
    obtain ⟨e1, e2, e3⟩ := hsh _ h1
    have hm : mstep S L = some { S.set i (f'.abs t') with pc := g (f'.abs t') } := by rw [hL, h1]; rfl
    refine ⟨_, Function.update t i t', mrel_set h hok h2 ?_ e2 e3 (by rw [hF]) (by rw [hF]; rfl) (by rw [hF]; rfl)
      (good_step hn h.good hm) ?_ (by rw [hF]; exact h.todo) rfl rfl (fun j hj => ?_) ?_, .inr hm⟩
    · rw [← h.rpb]; exact e1
    · rw [hF]; exact (hq f' t').symm
    · exact set_same S _ hj
    · exact view_set S e1 e2 e3

/-- A call of column `i`. -/
theorem msim_call (hn : ∀ i, 0 < (P i).threads) (h : MRel k rows file nB prog F S t) {i : Fin c} {op : Op (W i)}
    {junk : (i : Fin c) → Nat → W i} (hidle : (S.cols i).client = .idle) (hs : starts (P i) (F.view i).d op = false)
    {S1 : MState P} (hm : S.client junk = some S1) (hS1 : S1.cols = (S.set i (State.call (P i) (S.view i) op)).cols)
    (hSn : S1.nBlocks = (State.call (P i) (S.view i) op).nBlocks) (hS : S1.rowsPerBlock = S.rowsPerBlock)
    (hsh : Shared (S.view i) (State.call (P i) (S.view i) op))
    (hF : F'.cols = (F.set i (enterCall (P i) (F.view i) op)).cols)
    (hFn : F'.nBlocks = (enterCall (P i) (F.view i) op).d.nBlocks) (hFr : F'.rowsPerBlock = F.rowsPerBlock)
    (htodo : S1.todo = F'.todo)
    (hpc : ∀ t', State.call (P i) (S.view i) op = (enterCall (P i) (F.view i) op).abs t' → S1.pc = F'.pc) :
    MSim k rows file nB prog F F' S (.client junk) := by
  have hfi : (F.view i).client = .idle := idle_of_abs (t := t i) (by rw [← h.abs i]; exact hidle)
  obtain ⟨h1, t', h2, h3⟩ := sim_call (h.ok i) (h.thr i) (mcore hn h i) (fun hr => moff hn h i (.inl hr)) hfi rfl hs (junk i)
  rw [← h.abs i] at h2
  have e1 := congrArg State.rowsPerBlock h2
  have e2 := congrArg State.locked h2
  have e3 := congrArg State.todo h2
  have e4 := congrArg State.nBlocks h2
  refine ⟨S1, Function.update t i t', mrel_set h h1 h3 ?_ ?_ ?_ hF hFn hFr (good_step (l := .client junk) hn h.good hm)
    (hpc t' h2) htodo hS ?_ (fun j hj => ?_) ?_, .inr hm⟩
  · rw [← h.rpb]; exact e1.symm.trans hsh.rpb
  · exact e2.symm.trans hsh.locked
  · exact e3.symm.trans hsh.todo
  · rw [hSn]; exact e4
  · rw [hS1]; exact set_same S _ hj
  · have h5 : S1.cols i = State.call (P i) (S.view i) op := by rw [hS1]; exact set_self S _
    have h6 : S1.view i = State.call (P i) (S.view i) op := by
      have h7 := view_set S (i := i) hsh.rpb hsh.locked hsh.todo
      unfold MState.view at h7 ⊢
      rw [set_self] at h7
      rw [h5, hSn, hS]
      exact h7
    rw [h6, h2]

theorem starts_of {p : Params V K} {s : State V K n} {row : Nat} {v : V} (h : startsBlocks p s row = false) :
    starts p s (.put row v) = false := by
  unfold startsBlocks at h
  simp only [starts, h, Bool.false_and]

/-- A statement of the client outside the columns. -/
theorem msim_pc (hn : ∀ i, 0 < (P i).threads) (h : MRel k rows file nB prog F S t) {junk : (i : Fin c) → Nat → W i}
    {S' : MState P} (hm : S.client junk = some S') (hpc : S'.pc = F'.pc) (htodo : S'.todo = F'.todo)
    (hF : F'.cols = F.cols) (hFn : F'.nBlocks = F.nBlocks) (hS : S'.cols = S.cols) (hSn : S'.nBlocks = S.nBlocks)
    (hr : S'.rowsPerBlock = F'.rowsPerBlock)
    (hi : F'.rowsPerBlock = F.rowsPerBlock ∨ ∀ i, (S.cols i).client = .idle) :
    MSim k rows file nB prog F F' S (.client junk) := by
  refine ⟨S', t, ⟨good_step (l := .client junk) hn h.good hm, hpc, htodo, hr, by rw [hSn, hFn]; exact h.nBlocks, fun i => ?_, fun i => ?_,
    fun i => ?_⟩, .inr hm⟩
  · refine ok_frame (h.ok i) ?_ ?_ ?_ ?_ ?_ ?_ ?_ ?_
    · simp only [MSState.view, hF]
    · simp only [MSState.view, hF]
    · simp only [MSState.view, hF]
    · simp only [MSState.view, hF]
    · simp only [MSState.view, hF]
    · simp only [MSState.view, hF]
    · simp only [MSState.view, hF]
    · rcases hi with hi | hi
      · exact .inl hi
      · exact .inr (idle_of_abs (t := t i) (by rw [← h.abs i]; exact hi i))
  · have h1 := h.thr i
    have h2 : F'.view i = { F.view i with d := { (F.view i).d with rowsPerBlock := F'.rowsPerBlock } } := by
      unfold MSState.view
      rw [hF, hFn]
    rw [h2]
    exact h1
  · have h1 := h.abs i
    have h2 : F'.view i = { F.view i with d := { (F.view i).d with rowsPerBlock := F'.rowsPerBlock } } := by
      unfold MSState.view
      rw [hF, hFn]
    have h3 : S'.view i = { S.view i with rowsPerBlock := F'.rowsPerBlock } := by
      unfold MState.view
      rw [hS, hSn, hr]
    rw [h2, h3, h1]
    rfl

end rel

end Dysco.MStmt
