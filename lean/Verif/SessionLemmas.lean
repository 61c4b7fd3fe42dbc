import Verif.SessionModel

/-! # Lemmas for sessions -/

namespace Dysco.Session
open Col Multi StMan End BytePacker Layout World

variable {κ : Type} {c : Nat} {α : Fin c → Type}

/-! ## The history -/

theorem decOf_prefix {V : Type} {h H : List (Nat × Rows V)} (hp : h <+: H) {b k : Nat} (hk : k ≤ (ofBlock h b).length)
    (r : Rows V) : decOf h b k r = decOf H b k r := by
  unfold decOf
  split
  · rfl
  · obtain ⟨t, rfl⟩ := hp
    have : ofBlock (h ++ t) b = ofBlock h b ++ ofBlock t b := by
      unfold ofBlock; rw [List.filter_append, List.map_append]
    rw [this, List.getElem?_append_left (by omega)]

/-- A step of the client depends on `dec` only through the blocks as they are now. -/
theorem clientStep_dec {V : Type} {n : Nat} (p : Params V κ) (d d' : Nat → Nat → Rows V → Rows V) (s : State V κ n)
    (junk : Nat → V) (h : ∀ b r, d b (s.timesWritten b) r = d' b (s.timesWritten b) r) :
    clientStep { p with dec := d } s junk = clientStep { p with dec := d' } s junk := by
  unfold clientStep
  cases hc : s.client with
  | idle =>
    cases ht : s.todo with
    | nil => simp only
    | cons op rest => cases op <;> simp only [State.call, State.put]
  | load k =>
    simp only [State.loadBlock]
    cases hf : s.file (k.row / s.rowsPerBlock) with
    | none => rfl
    | some r => simp only [h]
  | store k => simp only [State.storeBlock]
  | _ => simp only

variable {W : Fin c → Type} {Q : (i : Fin c) → Params (W i) κ}

/-- The inverse of `with_`. -/
def without (D : Decs W) (S : MState (withDec Q D)) : MState Q :=
  ⟨S.pc, S.todo, S.rowsPerBlock, S.nBlocks, S.cols⟩

theorem without_with (D : Decs W) (S : MState Q) : without D (with_ D S) = S := rfl

theorem with_without (D : Decs W) (S : MState (withDec Q D)) :
    with_ D (without D S) = S := rfl

theorem mstep_dec {D D' : Decs W} {S : MState Q}
    (h : ∀ i b r, D i b ((S.cols i).timesWritten b) r = D' i b ((S.cols i).timesWritten b) r)
    (l : MLabel Q) :
    (mstep (with_ D S) (label D l)).map (without D) = (mstep (with_ D' S) (label D' l)).map (without D') := by
  have hcs : ∀ i junk, clientStep (withDec Q D i) ((with_ D S).view i) junk =
      clientStep (withDec Q D' i) ((with_ D' S).view i) junk := fun i junk =>
    clientStep_dec (Q i) (D i) (D' i) (S.view i) junk (h i)
  cases l with
  | thread i t =>
    show ((threadStep ((with_ D S).view i) t).map ((with_ D S).set i)).map (without D) =
      ((threadStep ((with_ D' S).view i) t).map ((with_ D' S).set i)).map (without D')
    show ((threadStep (S.view i) t).map ((with_ D S).set i)).map (without D) =
      ((threadStep (S.view i) t).map ((with_ D' S).set i)).map (without D')
    cases threadStep (S.view i) t <;> rfl
  | spuriousThread i t => rfl
  | spuriousClient i => rfl
  | client junk =>
    show ((with_ D S).client junk).map (without D) = ((with_ D' S).client junk).map (without D')
    unfold MState.client
    have hpc : (with_ D S).pc = S.pc := rfl
    have hpc' : (with_ D' S).pc = S.pc := rfl
    rw [hpc, hpc']
    cases hs : S.pc with
    | idle =>
      have ht : (with_ D S).todo = S.todo := rfl
      have ht' : (with_ D' S).todo = S.todo := rfl
      simp only
      rw [ht, ht']
      cases htd : S.todo with
      | nil => rfl
      | cons op rest =>
        cases op with
        | put i row v =>
          simp only
          have e : startsBlocks (withDec Q D i) ((with_ D S).view i) row =
              startsBlocks (withDec Q D' i) ((with_ D' S).view i) row := rfl
          rw [e]
          split <;> rfl
        | get i row => rfl
        | close => rfl
    | call i =>
      simp only
      rw [hcs i (junk i)]
      cases clientStep (withDec Q D' i) ((with_ D' S).view i) (junk i) <;> rfl
    | init i row v k =>
      simp only
      split
      · rename_i hk
        have e : ((with_ D S).cols ⟨k, hk⟩).cache = (S.cols ⟨k, hk⟩).cache := rfl
        have e' : ((with_ D' S).cols ⟨k, hk⟩).cache = (S.cols ⟨k, hk⟩).cache := rfl
        rw [e, e']
        split <;> rfl
      · rfl
    | header i row v => rfl
    | close k =>
      simp only
      split <;> rfl
    | closing i =>
      simp only
      rw [hcs i (junk i)]
      cases clientStep (withDec Q D' i) ((with_ D' S).view i) (junk i) <;> rfl
    | closed => rfl
    | failed => rfl
    | unsupported => rfl

theorem mstep_with {D D' : Decs W} {S S' : MState Q}
    (h : ∀ i b r, D i b ((S.cols i).timesWritten b) r = D' i b ((S.cols i).timesWritten b) r)
    {l : MLabel Q} (e : mstep (with_ D S) (label D l) = some (with_ D S')) :
    mstep (with_ D' S) (label D' l) = some (with_ D' S') := by
  have := mstep_dec h l
  rw [e] at this
  cases hx : mstep (with_ D' S) (label D' l) with
  | none => rw [hx] at this; cases this
  | some X =>
    rw [hx] at this
    simp only [Option.map_some, Option.some.injEq] at this
    rw [← with_without D' X, ← this]
    rfl

/-! ## What a step does -/

variable {P : (i : Fin c) → Params (DataRow (α i)) κ} {ants : Fin c → Bool} {K : Codecs α}

/-- Either a thread writes a block, or nothing is written. -/
theorem sstep_cases {s s' : SState P} {l : MLabel P} (h : SStep ants K s l s') :
    (∃ i t b r col d r', l = .thread i t ∧ (s.cols.cols i).threads t = .encode b r ∧
      s.man.columns[i.val]? = some col ∧ Encodes (K i s.man.rowsPerBlock col) col s.man.rowsPerBlock r d ∧
      Decodes (ants i) (K i s.man.rowsPerBlock col) col s.man.rowsPerBlock b d r' ∧
      s'.man = blockStep s.man (.write b i d) ∧ s'.hist = Function.update s.hist i (s.hist i ++ [(b, r')]) ∧
      (s'.cols.cols i).writes = (s.cols.cols i).writes ++ [(b, r)] ∧
      (∀ j, j ≠ i → (s'.cols.cols j).writes = (s.cols.cols j).writes) ∧
      s'.cols.nBlocks = if s.cols.nBlocks ≤ b then b + 1 else s.cols.nBlocks) ∨
    ((∀ i t b r, l = .thread i t → (s.cols.cols i).threads t ≠ .encode b r) ∧
      s'.hist = s.hist ∧ (∀ j, (s'.cols.cols j).writes = (s.cols.cols j).writes) ∧
      (s'.man = s.man ∨ ∃ i k dest, s.cols.pc = .call i ∧ (s.cols.cols i).client = .load k ∧
        s'.man = blockStep s.man (.read (k.row / s.cols.rowsPerBlock) i dest))) := by
  obtain ⟨e1, e2⟩ := h
  by_cases hl : ∃ i t b r, l = .thread i t ∧ (s.cols.cols i).threads t = .encode b r
  · left
    obtain ⟨i, t, b, r, rfl, hx⟩ := hl
    unfold SEffect at e2
    simp only [hx] at e2
    obtain ⟨col, d, r', c1, c2, c3, c4, c5⟩ := e2
    have e1' : (threadStep ((with_ s.decs s.cols).view i) t).map ((with_ s.decs s.cols).set i) =
        some (with_ s.decs s'.cols) := e1
    simp only [Option.map_eq_some_iff] at e1'
    obtain ⟨x, e3, e4⟩ := e1'
    have hx' : ((with_ s.decs s.cols).view i).threads t = .encode b r := hx
    have h3 : x.writes = (s.cols.cols i).writes ++ [(b, r)] := encode_writes (s := (with_ s.decs s.cols).view i) hx' e3
    have e5 : ∀ j, s'.cols.cols j = ((with_ s.decs s.cols).set i x).cols j := fun j => by rw [e4]; rfl
    refine ⟨i, t, b, r, col, d, r', rfl, hx, c1, c2, c3, c4, c5, ?_, fun j hj => ?_, ?_⟩
    · rw [e5, ← h3]
      simp [MState.set]
    · rw [e5]
      simp only [MState.set]
      rw [Function.update_of_ne hj]
      rfl
    · have := thread_blocks e3
      rw [hx'] at this
      have e6 : s'.cols.nBlocks = ((with_ s.decs s.cols).set i x).nBlocks := by rw [e4]; rfl
      rw [e6]
      exact this
  · right
    have hl' : ∀ i t b r, l = .thread i t → (s.cols.cols i).threads t ≠ .encode b r :=
      fun i t b r h1 h2 => hl ⟨i, t, b, r, h1, h2⟩
    refine ⟨hl', ?_⟩
    have hw : ∀ j, (s'.cols.cols j).writes = (s.cols.cols j).writes := by
      refine other_writes (S := with_ s.decs s.cols) (S' := with_ s.decs s'.cols) (l := label s.decs l) ?_ e1
      intro i t b r h1
      cases l with
      | thread i' t' =>
        have h1 : MLabel.thread (P := withDec P s.decs) i' t' = .thread i t := h1
        injection h1 with h1 h2
        subst h1
        have h2 := eq_of_heq h2
        subst h2
        exact hl' _ _ b r rfl
      | client junk => cases h1
      | spuriousThread i' t' => cases h1
      | spuriousClient i' => cases h1
    unfold SEffect at e2
    cases l with
    | client junk =>
      simp only at e2
      split at e2
      · rename_i hpc
        split at e2
        · rename_i hk
          obtain ⟨⟨dest, e2⟩, e3⟩ := e2
          exact ⟨e3, hw, .inr ⟨_, _, dest, hpc, hk, e2⟩⟩
        · exact ⟨e2.2, hw, .inl e2.1⟩
      · exact ⟨e2.2, hw, .inl e2.1⟩
    | thread i t =>
      simp only at e2
      split at e2
      · rename_i hx
        exact absurd hx (hl' i t _ _ rfl)
      · exact ⟨e2.2, hw, .inl e2.1⟩
    | spuriousThread i t => exact ⟨e2.2, hw, .inl e2.1⟩
    | spuriousClient i => exact ⟨e2.2, hw, .inl e2.1⟩

/-! ## The invariant -/

/-- The file operations of column `i` are the writes of its threads, and the history has what they decode to. -/
structure Logged (ants : Bool) {β : Type} (K : Codec β) (col : Column) (rows i : Nat) (ops : List BlockOp)
    (writes hist : List (Nat × Rows (DataRow β))) : Prop where
  encodes : Implements K col rows i ops writes
  decodes : List.Forall₂ (fun x y => x.1 = y.1 ∧ Decodes ants K col rows x.1 x.2 y.2) (colWrites i ops) hist

/-- Invariant of a session: the file holds the blocks that were written. Not in the code. -/
structure SInv (ants : Fin c → Bool) (K : Codecs α) (rows : Nat) (man0 : Man) (s : SState P) : Prop where
  rpb : s.cols.rowsPerBlock = rows
  laid : ¬ initializing s.cols
  bytes : ∃ ops, s.man = ops.foldl blockStep man0 ∧ ∀ (i : Fin c) col, man0.columns[i.val]? = some col →
    Logged (ants i) (K i rows col) col rows i ops (s.cols.cols i).writes (s.hist i)

theorem Logged.same {ants : Bool} {β : Type} {K : Codec β} {col : Column} {rows i : Nat} {ops ops' : List BlockOp}
    {writes hist : List (Nat × Rows (DataRow β))} (h : Logged ants K col rows i ops writes hist)
    (e : colWrites i ops' = colWrites i ops) : Logged ants K col rows i ops' writes hist := by
  obtain ⟨h1, h2⟩ := h
  unfold Implements at h1
  rw [← e] at h1 h2
  exact ⟨h1, h2⟩

theorem sinv_step {rows : Nat} {man0 : Man} (hr : man0.rowsPerBlock = rows) (hr0 : rows ≠ 0) {s s' : SState P}
    {l : MLabel P} (h : SInv ants K rows man0 s) (e : SStep ants K s l s') : SInv ants K rows man0 s' := by
  obtain ⟨l1, l2⟩ := laid_step (S := with_ s.decs s.cols) (S' := with_ s.decs s'.cols)
    (by show s.cols.rowsPerBlock ≠ 0; rw [h.rpb]; exact hr0) h.laid e.1
  refine ⟨l1.trans h.rpb, l2, ?_⟩
  obtain ⟨ops, b1, b2⟩ := h.bytes
  obtain ⟨n1, n2⟩ := blockSteps_columns ops man0
  rw [← b1] at n1 n2
  rcases sstep_cases e with ⟨i, t, b, r, col, d, r', rfl, hx, c1, c2, c3, c4, c5, w1, w2, -⟩ | ⟨-, c1, w, hm⟩
  · refine ⟨ops ++ [.write b i d], by rw [c4, b1, List.foldl_append]; rfl, fun j colj hcj => ?_⟩
    have hj := b2 j colj hcj
    by_cases hji : j = i
    · subst hji
      have ec : colWrites j (ops ++ [.write b j d]) = colWrites j ops ++ [(b, d)] := by
        rw [colWrites_append]
        simp [colWrites]
      rw [n1, hcj] at c1
      injection c1 with c1
      subst c1
      rw [n2, hr] at c2 c3
      constructor
      · unfold Implements
        rw [ec, w1]
        exact List.rel_append hj.encodes (.cons ⟨rfl, c2⟩ .nil)
      · rw [ec, c5, Function.update_self]
        exact List.rel_append hj.decodes (.cons ⟨rfl, c3⟩ .nil)
    · rw [w2 j hji, c5, Function.update_of_ne hji]
      refine hj.same ?_
      have : ¬ i.val = j.val := fun hv => hji (Fin.ext hv.symm)
      rw [colWrites_append]
      simp [colWrites, this]
  · rcases hm with hm | ⟨i, k, dest, -, -, hm⟩
    · refine ⟨ops, hm.trans b1, fun j colj hcj => ?_⟩
      rw [w j, c1]
      exact b2 j colj hcj
    · refine ⟨ops ++ [.read (k.row / s.cols.rowsPerBlock) i dest], by rw [hm, b1, List.foldl_append]; rfl,
        fun j colj hcj => ?_⟩
      rw [w j, c1]
      refine (b2 j colj hcj).same ?_
      rw [colWrites_append]
      simp [colWrites]

theorem session_inv {k : κ} {rows N : Nat} {man0 : Man} {blocks : Blocks α} {prog : List (MOp fun i => DataRow (α i))}
    (hr : man0.rowsPerBlock = rows) (hr0 : rows ≠ 0) {s : SState P}
    (h : SReach ants K (sinitial P k rows N man0 blocks prog) s) : SInv ants K rows man0 s := by
  induction h with
  | start =>
    refine ⟨rfl, ?_, [], rfl, fun i col _ => ⟨.nil, .nil⟩⟩
    rintro (⟨_, _, _, _, h⟩ | ⟨_, _, _, h⟩) <;> cases h
  | step _ e ih => exact sinv_step hr hr0 ih e

/-- The history has one entry for every write. -/
theorem Logged.count {ants : Bool} {β : Type} {K : Codec β} {col : Column} {rows i : Nat} {ops : List BlockOp}
    {writes hist : List (Nat × Rows (DataRow β))} (h : Logged ants K col rows i ops writes hist) (b : Nat) :
    (ofBlock hist b).length = (ofBlock writes b).length := by
  have e1 : (colWrites i ops).map (·.1) = writes.map (·.1) := by
    have := h.encodes
    unfold Implements at this
    clear h
    generalize colWrites i ops = l at this ⊢
    induction this with
    | nil => rfl
    | cons hx _ ih => simp only [List.map_cons, hx.1, ih]
  have e2 : (colWrites i ops).map (·.1) = hist.map (·.1) := by
    have := h.decodes
    clear h e1
    generalize colWrites i ops = l at this ⊢
    induction this with
    | nil => rfl
    | cons hx _ ih => simp only [List.map_cons, hx.1, ih]
  have key : ∀ l : List (Nat × Rows (DataRow β)), (ofBlock l b).length = (l.map (·.1)).countP (· == b) := by
    intro l
    unfold ofBlock
    rw [List.length_map, ← List.countP_eq_length_filter, List.countP_map]
    rfl
  rw [key, key, ← e1, ← e2]

/-- A session is a run of the columns, with the outcomes of encoding that its history has. -/
theorem session_run {k : κ} {rows N : Nat} {man0 : Man} {blocks : Blocks α} {prog : List (MOp fun i => DataRow (α i))}
    (hr : man0.rowsPerBlock = rows) (hr0 : rows ≠ 0) (hc : man0.columns.length = c) {s : SState P}
    (h : SReach ants K (sinitial P k rows N man0 blocks prog) s) :
    ∀ D : Decs fun i => DataRow (α i),
      (∀ i b k r, k ≤ (ofBlock (s.hist i) b).length → D i b k r = decOf (s.hist i) b k r) →
      MReachable (minitial (withDec P D) k rows (fun i b => if b < N then some (blocks i b) else none) N prog)
        (with_ D s.cols) := by
  induction h with
  | start => exact fun D _ => ⟨[], rfl⟩
  | @step s s' l hs e ih =>
    intro D hD
    have hinv := session_inv hr hr0 hs
    have hpre : ∀ i, s.hist i <+: s'.hist i := by
      intro i
      rcases sstep_cases e with ⟨j, t, b, r, col, d, r', -, -, -, -, -, -, c5, -⟩ | ⟨-, c1, -⟩
      · rw [c5]
        by_cases hij : i = j
        · subst hij
          rw [Function.update_self]
          exact List.prefix_append _ _
        · rw [Function.update_of_ne hij]
      · rw [c1]
    have hp : ∀ i b k r, k ≤ (ofBlock (s.hist i) b).length → D i b k r = decOf (s.hist i) b k r := by
      intro i b k r hk
      rw [decOf_prefix (hpre i) hk r]
      refine hD i b k r (hk.trans ?_)
      obtain ⟨t, ht⟩ := hpre i
      rw [← ht]
      unfold ofBlock
      rw [List.filter_append, List.map_append, List.length_append]
      omega
    refine mreach_step (ih D hp) (l := label D l) (mstep_with ?_ e.1)
    intro i b r
    refine (hp i b _ r ?_).symm
    obtain ⟨ops, -, b2⟩ := hinv.bytes
    obtain ⟨col, hcol⟩ : ∃ col, man0.columns[i.val]? = some col :=
      ⟨_, List.getElem?_eq_getElem (by rw [hc]; exact i.isLt)⟩
    rw [(b2 i col hcol).count b, timesWritten_eq]

/-- Only a write changes the number of blocks. -/
theorem other_nBlocks {s s' : SState P} {l : MLabel P} (hp : Place (with_ s.decs s.cols))
    (hl : ∀ i t b r, l = .thread i t → (s.cols.cols i).threads t ≠ .encode b r) (e : SStep ants K s l s') :
    s'.cols.nBlocks = s.cols.nBlocks := by
  have e1 := e.1
  cases l with
  | client junk =>
    exact mclient_blocks (S := with_ s.decs s.cols) (S' := with_ s.decs s'.cols)
      hp e1
  | thread i t =>
    have e1' : (threadStep ((with_ s.decs s.cols).view i) t).map ((with_ s.decs s.cols).set i) =
        some (with_ s.decs s'.cols) := e1
    simp only [Option.map_eq_some_iff] at e1'
    obtain ⟨x, e3, e4⟩ := e1'
    have e6 : s'.cols.nBlocks = ((with_ s.decs s.cols).set i x).nBlocks := by rw [e4]; rfl
    rw [e6]
    have := thread_blocks e3
    split at this
    · rename_i hx
      exact absurd hx (hl i t _ _ rfl)
    · exact this
  | spuriousThread i t =>
    have e1' : some ((with_ s.decs s.cols).set i { (with_ s.decs s.cols).view i with
        threads := Function.update ((with_ s.decs s.cols).view i).threads t
          (((with_ s.decs s.cols).view i).threads t).wake }) = some (with_ s.decs s'.cols) := e1
    injection e1' with e1'
    have e6 : s'.cols.nBlocks = (with_ s.decs s'.cols).nBlocks := rfl
    rw [e6, ← e1']
    rfl
  | spuriousClient i =>
    have e1' : some ((with_ s.decs s.cols).set i { (with_ s.decs s.cols).view i with
        client := ((with_ s.decs s.cols).view i).client.wake }) = some (with_ s.decs s'.cols) := e1
    injection e1' with e1'
    have e6 : s'.cols.nBlocks = (with_ s.decs s'.cols).nBlocks := rfl
    rw [e6, ← e1']
    rfl

/-- The two counts of blocks agree. -/
theorem session_blocks (hn : ∀ i, 0 < (P i).threads) {k : κ} {rows N : Nat} {man0 : Man} {store : Store}
    {blocks : Blocks α} {prog : List (MOp fun i => DataRow (α i))} (hr0 : rows ≠ 0)
    (hd : OnDisk ants K rows N man0 store blocks) {s : SState P}
    (h : SReach ants K (sinitial P k rows N man0 blocks prog) s) : s.cols.nBlocks = s.man.nBlocks := by
  induction h with
  | start =>
    show (if rows = 0 then 0 else N) = man0.nBlocks
    rw [if_neg hr0, hd.count]
  | @step s s' l hs e ih =>
    have hrun := session_run hd.rowsPerBlock hr0 hd.columns hs s.decs fun _ _ _ _ _ => rfl
    have hinv := session_inv hd.rowsPerBlock hr0 hs
    obtain ⟨ops, b1, -⟩ := hinv.bytes
    have hholds := (run_holds hd.holds ops).1
    rw [← b1] at hholds
    rcases sstep_cases e with ⟨i, t, b, r, col, d, r', -, -, c1, -, -, c4, -, -, -, c8⟩ | ⟨hl, -, -, hm⟩
    · rw [c8, c4, ih]
      simp only [blockStep, c1, writeCompressedData]
      split <;> split <;> rfl
    · have h1 : s'.cols.nBlocks = s.cols.nBlocks :=
        other_nBlocks (good_reachable (P := withDec P s.decs) hn hrun).place hl e
      rw [h1, ih]
      rcases hm with hm | ⟨i, k', dest, -, -, hm⟩
      · rw [hm]
      · rw [hm]
        simp only [blockStep]
        split
        · rfl
        · rename_i col hcol
          split
          · rename_i hb
            obtain ⟨hi, rfl⟩ := List.getElem?_eq_some_iff.mp hcol
            obtain ⟨d, e5, -⟩ := read_spec hholds hi hb dest
            rw [e5]
          · rfl

end Dysco.Session
