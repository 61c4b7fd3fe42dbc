import Verif.SessionLemmas

/-!
# C98: a table that is updated in place

The bytes of the file, the threads and the program without threads, for a table that was opened.

The examples are at the end of `SessionLife.lean`.
-/

namespace Dysco.Session
open Col Multi StMan End BytePacker Layout World

variable {κ : Type} {c : Nat} {α : Fin c → Type} {P : (i : Fin c) → Params (DataRow (α i)) κ} {ants : Fin c → Bool}
  {K : Codecs α}

/-! ## The last write of a block -/

theorem forall₂_concat {A B : Type} {R : A → B → Prop} {l : List A} {a : A} {l' : List B}
    (h : List.Forall₂ R (l ++ [a]) l') : ∃ m b, l' = m ++ [b] ∧ List.Forall₂ R l m ∧ R a b := by
  induction l generalizing l' with
  | nil =>
    cases h with
    | cons hx ht => cases ht; exact ⟨[], _, rfl, .nil, hx⟩
  | cons x l ih =>
    cases h with
    | cons hx ht =>
      obtain ⟨m, b, rfl, h1, h2⟩ := ih ht
      exact ⟨_ :: m, b, rfl, .cons hx h1, h2⟩

/-- What the file has of block `b` of a column: what it had before, or the bytes of the last write, which decode to
the last entry of the history. -/
theorem Logged.last {an : Bool} {β : Type} {K : Codec β} {col : Column} {rows i n : Nat} (hi : i < n)
    {ops : List BlockOp} {writes hist : List (Nat × Rows (DataRow β))} (h : Logged an K col rows i ops writes hist)
    (S : Store) (b : Nat) :
    (ofBlock writes b = [] ∧ ofBlock hist b = [] ∧ ops.foldl (storeStep n) S b i = S b i) ∨
    ∃ w r d h r', ofBlock writes b = w ++ [r] ∧ ofBlock hist b = h ++ [r'] ∧ w.length = h.length ∧
      ops.foldl (storeStep n) S b i = some d ∧ Encodes K col rows r d ∧ Decodes an K col rows b d r' := by
  induction ops using List.reverseRecOn generalizing writes hist with
  | nil =>
    obtain ⟨h1, h2⟩ := h
    unfold Implements at h1
    cases h1
    cases h2
    exact .inl ⟨rfl, rfl, rfl⟩
  | append_singleton ops op ih =>
    have hother : colWrites i (ops ++ [op]) = colWrites i ops → (∀ S' : Store, storeStep n S' op b i = S' b i) →
        (ofBlock writes b = [] ∧ ofBlock hist b = [] ∧ (ops ++ [op]).foldl (storeStep n) S b i = S b i) ∨
        ∃ w r d h r', ofBlock writes b = w ++ [r] ∧ ofBlock hist b = h ++ [r'] ∧ w.length = h.length ∧
          (ops ++ [op]).foldl (storeStep n) S b i = some d ∧ Encodes K col rows r d ∧ Decodes an K col rows b d r' := by
      intro e1 e2
      rw [List.foldl_append]
      simp only [List.foldl_cons, List.foldl_nil]
      rw [e2]
      exact ih (h.same e1.symm)
    cases op with
    | read b' j dest =>
      exact hother (by rw [colWrites_append]; simp [colWrites]) fun _ => rfl
    | header => exact hother (by rw [colWrites_append]; simp [colWrites]) fun _ => rfl
    | write b' j d =>
      by_cases hj : j = i
      · subst hj
        have ec : colWrites j (ops ++ [.write b' j d]) = colWrites j ops ++ [(b', d)] := by
          rw [colWrites_append]
          simp [colWrites]
        obtain ⟨h1, h2⟩ := h
        unfold Implements at h1
        rw [ec] at h1 h2
        obtain ⟨w, ⟨y, r⟩, rfl, w1, w2, w3⟩ := forall₂_concat h1
        obtain ⟨hs, ⟨y', r'⟩, rfl, v1, v2, v3⟩ := forall₂_concat h2
        simp only at w2 w3 v2 v3
        subst w2
        subst v2
        rw [ofBlock_append, ofBlock_append, List.foldl_append]
        simp only [List.foldl_cons, List.foldl_nil, storeStep]
        by_cases hb : b' = b
        · subst hb
          right
          rw [if_pos rfl, if_pos rfl, if_pos ⟨rfl, trivial, hi⟩]
          exact ⟨_, r, d, _, r', rfl, rfl, ((⟨w1, v1⟩ : Logged an K col rows j ops w hs).count b').symm, rfl, w3, v3⟩
        · rw [if_neg hb, if_neg hb, if_neg (by rintro ⟨h0, -⟩; exact hb h0.symm)]
          exact ih ⟨w1, v1⟩
      · refine hother ?_ fun S' => ?_
        · rw [colWrites_append]
          simp [colWrites, hj]
        · simp only [storeStep]
          rw [if_neg (by rintro ⟨-, h0, -⟩; exact hj h0.symm)]

section
variable {k : κ} {rows N : Nat} {man0 : Man} {store : Store} {blocks : Blocks α}
  {prog : List (MOp fun i => DataRow (α i))}

/-- At every moment, the file has for every block of every column bytes that decode to what the column would load. -/
theorem session_bytes (hn : ∀ i, 0 < (P i).threads) (hr0 : rows ≠ 0) (hd : OnDisk ants K rows N man0 store blocks)
    {s : SState P} (h : SReach ants K (sinitial P k rows N man0 blocks prog) s) :
    ∃ store', StMan.Holds s.man store' ∧ s.man.rowsPerBlock = rows ∧ s.man.columns = man0.columns ∧
      ∀ (i : Fin c) col b r, man0.columns[i.val]? = some col → (s.cols.cols i).file b = some r →
        ∃ d, store' b i = some d ∧ Decodes (ants i) (K i rows col) col rows b d
          (decOf (s.hist i) b ((s.cols.cols i).timesWritten b) r) := by
  have hinv := session_inv hd.rowsPerBlock hr0 h
  have hrun := session_run hd.rowsPerBlock hr0 hd.columns h s.decs fun _ _ _ _ _ => rfl
  obtain ⟨ops, b1, b2⟩ := hinv.bytes
  obtain ⟨n1, n2⟩ := blockSteps_columns ops man0
  refine ⟨ops.foldl (storeStep man0.columns.length) store, by rw [b1]; exact (run_holds hd.holds ops).1,
    by rw [b1, n2, hd.rowsPerBlock], by rw [b1, n1], fun i col b r hcol hf => ?_⟩
  obtain ⟨done, -, -, -, hr⟩ := column_alone (P := withDec P s.decs) hn hrun i
  have hfile := (initial_reachable_inv (p := withDec P s.decs i) (hn i) (hr [])).core.file b
  have hfile : (s.cols.cols i).file b = ((ofBlock (s.cols.cols i).writes b).getLast?).or
      (fileAt rows (fun b => if b < N then some (blocks i b) else none) b) := hfile
  unfold fileAt at hfile
  rw [if_neg hr0, hf] at hfile
  rw [timesWritten_eq]
  rcases (b2 i col hcol).last (n := man0.columns.length) (by rw [hd.columns]; exact i.isLt) store b with
    ⟨w1, -, w3⟩ | ⟨w, r1, d, hh, r', w1, w2, w3, w4, -, w6⟩
  · rw [w1] at hfile ⊢
    rw [w3]
    simp only [List.getLast?_nil, Option.none_or] at hfile
    split at hfile
    · rename_i hb
      injection hfile with hfile
      subst hfile
      exact hd.data i col b hcol hb
    · cases hfile
  · rw [w4]
    refine ⟨d, rfl, ?_⟩
    unfold decOf
    rw [if_neg (by rw [w1]; simp), w1, w2, List.length_append, w3]
    simpa using w6

/-- `loadBlock` of the session is that of the code: it reads bytes from the file, and the time block buffer has the rows
that these decode to. The new buffer of the session has these rows, and in a put the row of the put is then replaced. -/
theorem load_spec (hn : ∀ i, 0 < (P i).threads) (hr0 : rows ≠ 0) (hd : OnDisk ants K rows N man0 store blocks)
    {s s' : SState P} (h : SReach ants K (sinitial P k rows N man0 blocks prog) s) {i : Fin c}
    {kk : Next (DataRow (α i))} (hpc : s.cols.pc = .call i) (hk : (s.cols.cols i).client = .load kk)
    {junk : (i : Fin c) → Nat → DataRow (α i)} (e : SStep ants K s (.client junk) s')
    (hb : kk.row / rows < s.man.nBlocks) {r0 : Rows (DataRow (α i))} (hf : (s.cols.cols i).file (kk.row / rows) = some r0)
    {col : Column} (hcol : man0.columns[i.val]? = some col) (packed : Mem 8) (unpacked : Buf Nat) (cur : Nat)
    (old : Block (α i)) (hp : packed.len = col.blockSize) (hu : unpacked.len = col.symCount rows) :
    ∃ blk r, End.loadBlock (K i rows col) i (kk.row / rows) packed unpacked ⟨s.man, cur, old⟩ =
        .ok ⟨s.man, kk.row / rows, blk⟩ ∧ SameRows (ants i) rows blk r ∧ s'.man = s.man ∧
      (s'.cols.cols i).current = kk.row / rows ∧
      (s'.cols.cols i).buffer = match kk with
        | .get _ => r
        | .put row v => r.set (row % rows) v := by
  have hinv := session_inv hd.rowsPerBlock hr0 h
  obtain ⟨store', h1, h2, h3, h4⟩ := session_bytes hn hr0 hd h
  obtain ⟨d, d1, d2⟩ := h4 i col _ r0 hcol hf
  have hi : i.val < s.man.columns.length := by rw [h3, hd.columns]; exact i.isLt
  have hcs : s.man.columns[i.val] = col := by
    have : s.man.columns[i.val]? = some col := by rw [h3]; exact hcol
    exact (List.getElem?_eq_some_iff.mp this).2
  obtain ⟨dest, e1, e2, e3, -⟩ := read_spec h1 hi hb packed
  rw [hcs] at e1 e3
  obtain ⟨blk, e4, e5⟩ := d2 dest unpacked old (by rw [e2, hp]) hu (e3 d d1)
  refine ⟨blk, _, ?_, e5, ?_, ?_, ?_⟩
  · unfold End.loadBlock
    simp only [List.getElem?_eq_getElem hi, hcs]
    rw [if_pos hb, e1]
    simp only [h2]
    rw [e4]
  · rcases sstep_cases e with ⟨_, _, _, _, _, _, _, hx, -⟩ | ⟨-, -, -, hm⟩
    · cases hx
    · rcases hm with hm | ⟨i', k', dest', q1, q2, hm⟩
      · exact hm
      · rw [hpc] at q1
        injection q1 with q1
        subst q1
        rw [hk] at q2
        injection q2 with q2
        subst q2
        rw [hm, hinv.rpb]
        simp only [blockStep, List.getElem?_eq_getElem hi]
        rw [if_pos hb]
        obtain ⟨_, x1, -⟩ := read_spec h1 hi hb dest'
        rw [x1]
  all_goals
    have hs : (clientStep (withDec P s.decs i) ((with_ s.decs s.cols).view i) (junk i)).map
        ((with_ s.decs s.cols).enter i) = some (with_ s.decs s'.cols) := by
      have := e.1
      simp only [mstep, label, MState.client] at this
      rw [show (with_ s.decs s.cols).pc = .call i from hpc] at this
      exact this
    simp only [Option.map_eq_some_iff] at hs
    obtain ⟨x, x1, x2⟩ := hs
    have x3 : s'.cols.cols i = x := by
      have : (with_ s.decs s'.cols).cols i = x := by rw [← x2]; simp [MState.enter, MState.set]
      exact this
    have hv1 : ((with_ s.decs s.cols).view i).client = .load kk := hk
    have hv2 : ((with_ s.decs s.cols).view i).rowsPerBlock = rows := hinv.rpb
    have hv3 : ((with_ s.decs s.cols).view i).nBlocks = s.man.nBlocks := session_blocks hn hr0 hd h
    have hv4 : ((with_ s.decs s.cols).view i).file (kk.row / rows) = some r0 := hf
    unfold clientStep at x1
    simp only [hv1, Option.some.injEq] at x1
    rw [x3, ← x1]
  · cases kk <;> exact congrArg (_ / ·) hv2
  · have hbuf : (State.loadBlock (withDec P s.decs i) ((with_ s.decs s.cols).view i) (kk.row / rows) (junk i)).buffer =
        decOf (s.hist i) (kk.row / rows) ((s.cols.cols i).timesWritten (kk.row / rows)) r0 :=
      loadBlock_buffer (p := withDec P s.decs i) (by rw [hv3]; exact hb) hv4
    rw [hv2]
    cases kk with
    | get row => exact hbuf
    | put row v =>
      show Rows.set _ _ _ = _
      rw [hbuf]
      congr 1
      exact congrArg (row % ·) hv2

end

/-! ## Programs without threads -/

/-- The program with a log and the specification are in the same state. -/
structure Rel {V : Type} (dec : Nat → Nat → Rows V → Rows V) (q : Col.Mem V) (sp : Spec V) : Prop where
  cur : sp.cur = q.cur
  buf : sp.buf = q.buf
  changed : sp.changed = q.changed
  outs : sp.outs = q.outs
  blocks : ∀ b, sp.blocks b = dec b (q.times b) (q.blocks b)

/-- All writes of the log are possible. -/
def Possible {V : Type} (E : Nat → Rows V → Rows V → Prop) (dec : Nat → Nat → Rows V → Rows V)
    (log : List (Nat × Rows V)) : Prop :=
  ∀ (b k : Nat) (r : Rows V), (ofBlock log b)[k]? = some r → E b r (dec b (k + 1) r)

section
variable {V : Type} {E : Nat → Rows V → Rows V → Prop} {dec : Nat → Nat → Rows V → Rows V} {m N : Nat}

theorem flush_spec {q : Col.Mem V} {sp : Spec V} (h : Rel dec q sp) (hE : Possible E dec q.flush.log) :
    ∃ sp', Spec.Flush E sp sp' ∧ Rel dec q.flush sp' := by
  unfold Col.Mem.flush at hE ⊢
  cases hc : q.changed with
  | false =>
    simp only [Bool.false_eq_true, if_false]
    exact ⟨sp, .clean (h.changed.trans hc), h⟩
  | true =>
    simp only [hc, if_true] at hE ⊢
    have hw : E q.cur q.buf (dec q.cur (q.times q.cur + 1) q.buf) := by
      refine hE q.cur (q.times q.cur) q.buf ?_
      rw [ofBlock_append, if_pos rfl]
      unfold Col.Mem.times
      simp
    refine ⟨_, .write (dec q.cur (q.times q.cur + 1) q.buf) (h.changed.trans hc)
      (by rw [h.cur, h.buf]; exact hw), h.cur, h.buf, rfl, h.outs, fun b => ?_⟩
    show Function.update sp.blocks sp.cur _ b = dec b (ofBlock (q.log ++ [(q.cur, q.buf)]) b).length
      (Function.update q.blocks q.cur q.buf b)
    rw [ofBlock_append, h.cur]
    by_cases hb : q.cur = b
    · subst hb
      rw [if_pos rfl, Function.update_self, Function.update_self, List.length_append]
      rfl
    · rw [if_neg hb, Function.update_of_ne (Ne.symm hb), Function.update_of_ne (Ne.symm hb)]
      exact h.blocks b

theorem visit_spec {q : Col.Mem V} {sp : Spec V} (h : Rel dec q sp) {b : Nat} (hE : Possible E dec (q.visit dec b).log) :
    ∃ sp', Spec.Visit E b sp sp' ∧ Rel dec (q.visit dec b) sp' := by
  unfold Col.Mem.visit at hE ⊢
  by_cases hb : b = q.cur
  · simp only [if_pos hb]
    exact ⟨sp, .same (hb.trans h.cur.symm), h⟩
  · simp only [if_neg hb] at hE ⊢
    obtain ⟨sp1, f1, f2⟩ := flush_spec h hE
    exact ⟨_, .other sp1 (by rw [h.cur]; exact hb) f1, rfl, f2.blocks b, f2.changed, f2.outs, f2.blocks⟩

theorem Possible.sub {l l' : List (Nat × Rows V)} (h : Possible E dec l') (hp : l <+: l') : Possible E dec l := by
  obtain ⟨t, rfl⟩ := hp
  intro b k r hk
  refine h b k r ?_
  have : ofBlock (l ++ t) b = ofBlock l b ++ ofBlock t b := by
    unfold ofBlock; rw [List.filter_append, List.map_append]
  rw [this, List.getElem?_append_left (List.getElem?_eq_some_iff.mp hk).1]
  exact hk

/-- A program with a log of possible writes is a run of the specification. -/
theorem runs_of_mem {ops : List (Op V)} {q : Col.Mem V} {d : List Nat} {cur : Nat} {sp : Spec V}
    (hu : Updates m N d cur ops) (h : Rel dec q sp) (hE : Possible E dec (q.run dec m ops).log) :
    ∃ sp', Spec.Runs E m sp ops sp' ∧ Rel dec (q.run dec m ops) sp' := by
  induction ops generalizing q sp d cur with
  | nil => exact hu.elim
  | cons op ops ih =>
    have hop : Possible E dec (q.op dec m op).log := hE.sub (run_log ops _)
    have hlast : ∀ sp1, Rel dec (q.op dec m op) sp1 → (ops = [] ∨ ∃ d cur, Updates m N d cur ops) →
        ∃ sp', Spec.Runs E m sp1 ops sp' ∧ Rel dec (q.run dec m (op :: ops)) sp' := by
      rintro sp1 h1 (rfl | ⟨d', cur', h2⟩)
      · exact ⟨sp1, .nil _, h1⟩
      · exact ih h2 h1 hE
    cases op with
    | put row v =>
      simp only [Updates] at hu
      obtain ⟨sp1, v1, v2⟩ := visit_spec h (b := row / m) hop
      obtain ⟨sp2, r1, r2⟩ := hlast { sp1 with buf := sp1.buf.set (row % m) v, changed := true }
        ⟨v2.cur, by simp only [v2.buf]; rfl, rfl, v2.outs, v2.blocks⟩ (.inr ⟨_, _, hu.2.2⟩)
      exact ⟨sp2, .cons (.put row v sp1 v1) r1, r2⟩
    | get row =>
      simp only [Updates] at hu
      obtain ⟨sp1, v1, v2⟩ := visit_spec h (b := row / m) hop
      obtain ⟨sp2, r1, r2⟩ := hlast { sp1 with outs := sp1.outs ++ [(row, sp1.buf.getData (row % m))] }
        ⟨v2.cur, v2.buf, v2.changed, by simp only [v2.buf, v2.outs]; rfl, v2.blocks⟩ (.inr ⟨_, _, hu.2⟩)
      exact ⟨sp2, .cons (.get row sp1 v1) r1, r2⟩
    | close =>
      have hnil : ops = [] := by
        cases ops with
        | nil => rfl
        | cons _ _ => exact hu.elim
      obtain ⟨sp1, v1, v2⟩ := flush_spec h hop
      obtain ⟨sp2, r1, r2⟩ := hlast sp1 v2 (.inl hnil)
      exact ⟨sp2, .cons (.close sp1 v1) r1, r2⟩
    | addColumn => cases ops <;> exact hu.elim
    | otherInit _ => cases ops <;> exact hu.elim

/-- Only blocks of the table are written. -/
theorem log_inside {ops : List (Op V)} {q : Col.Mem V} {d : List Nat} (hu : Updates m N d q.cur ops)
    (hc : q.changed = true → q.cur < N) (hl : ∀ x ∈ q.log, x.1 < N) : ∀ x ∈ (q.run dec m ops).log, x.1 < N := by
  have hflush : ∀ q : Col.Mem V, (q.changed = true → q.cur < N) → (∀ x ∈ q.log, x.1 < N) → ∀ x ∈ q.flush.log, x.1 < N := by
    intro q hc hl x hx
    unfold Col.Mem.flush at hx
    split at hx
    · rename_i h
      rcases List.mem_append.mp hx with hx | hx
      · exact hl x hx
      · rw [List.mem_singleton.mp hx]
        exact hc h
    · exact hl x hx
  have hvisit : ∀ (q : Col.Mem V) b, b < N → (q.changed = true → q.cur < N) → (∀ x ∈ q.log, x.1 < N) →
      (q.visit dec b).cur = b ∧ ∀ x ∈ (q.visit dec b).log, x.1 < N := by
    intro q b hb hc hl
    unfold Col.Mem.visit
    split
    · rename_i h
      exact ⟨h.symm, hl⟩
    · exact ⟨rfl, hflush q hc hl⟩
  induction ops generalizing q d with
  | nil => exact hu.elim
  | cons op ops ih =>
    cases op with
    | put row v =>
      simp only [Updates] at hu
      obtain ⟨v1, v2⟩ := hvisit q (row / m) hu.1 hc hl
      exact ih (q := { q.visit dec (row / m) with buf := _, changed := true }) (d := row / m :: d)
        (by rw [show ({ q.visit dec (row / m) with buf := _, changed := true } : Col.Mem V).cur = row / m from v1]; exact hu.2.2)
        (fun _ => by rw [show ({ q.visit dec (row / m) with buf := _, changed := true } : Col.Mem V).cur = row / m from v1]; exact hu.1) v2
    | get row =>
      simp only [Updates] at hu
      obtain ⟨v1, v2⟩ := hvisit q (row / m) hu.1 hc hl
      exact ih (q := { q.visit dec (row / m) with outs := _ }) (d := d)
        (by rw [show ({ q.visit dec (row / m) with outs := _ } : Col.Mem V).cur = row / m from v1]; exact hu.2)
        (fun _ => by rw [show ({ q.visit dec (row / m) with outs := _ } : Col.Mem V).cur = row / m from v1]; exact hu.1) v2
    | close =>
      have hnil : ops = [] := by
        cases ops with
        | nil => rfl
        | cons _ _ => exact hu.elim
      subst hnil
      exact hflush q hc hl
    | addColumn => cases ops <;> exact hu.elim
    | otherInit _ => cases ops <;> exact hu.elim

end

/-- Every write is a possible encoding of its rows. -/
theorem Logged.possible {an : Bool} {β : Type} {K : Codec β} {col : Column} {rows i : Nat}
    {ops : List BlockOp} {writes hist : List (Nat × Rows (DataRow β))} (h : Logged an K col rows i ops writes hist) :
    Possible (Recoded an K col rows) (decOf hist) writes := by
  have hz : List.Forall₂ (fun x y : Nat × Rows (DataRow β) => x.1 = y.1 ∧ Recoded an K col rows x.1 x.2 y.2) writes hist := by
    obtain ⟨h1, h2⟩ := h
    unfold Implements at h1
    rw [List.forall₂_iff_get] at h1 h2 ⊢
    refine ⟨h1.1.symm.trans h2.1, fun k hk hk' => ?_⟩
    obtain ⟨a1, a2⟩ := h1.2 k (by rw [h1.1]; exact hk) hk
    obtain ⟨b1, b2⟩ := h2.2 k (by rw [h1.1]; exact hk) hk'
    rw [a1] at b1 b2
    exact ⟨b1, _, a2, b2⟩
  intro b k r hk
  have hf : List.Forall₂ (Recoded an K col rows b) (ofBlock writes b) (ofBlock hist b) := by
    clear h hk
    induction hz with
    | nil => exact .nil
    | @cons x y l l' hx _ ih =>
      unfold ofBlock at ih ⊢
      rw [List.filter_cons, List.filter_cons, ← hx.1]
      by_cases hb : x.1 = b
      · simp only [hb, beq_self_eq_true, if_true, List.map_cons]
        exact .cons (by rw [← hb]; exact hx.2) ih
      · simp only [beq_eq_false_iff_ne.mpr hb, Bool.false_eq_true, if_false]
        exact ih
  obtain ⟨hk1, hk2⟩ := List.getElem?_eq_some_iff.mp hk
  rw [List.forall₂_iff_get] at hf
  have hk3 : k < (ofBlock hist b).length := by rw [← hf.1]; exact hk1
  have := hf.2 k hk1 hk3
  unfold decOf
  rw [if_neg (by omega), Nat.add_sub_cancel, List.getElem?_eq_getElem hk3]
  simp only [List.get_eq_getElem, hk2] at this
  exact this

section
variable {k : κ} {rows N : Nat} {man0 : Man} {store : Store} {blocks : Blocks α}
  {prog : List (MOp fun i => DataRow (α i))}

/-- As long as only blocks of the table are written, their number stays the same. -/
theorem session_count (hn : ∀ i, 0 < (P i).threads) (hr0 : rows ≠ 0) (hd : OnDisk ants K rows N man0 store blocks)
    {s : SState P} (h : SReach ants K (sinitial P k rows N man0 blocks prog) s)
    (hw : ∀ i, ∀ x ∈ (s.cols.cols i).writes, x.1 < N) : s.cols.nBlocks = N := by
  induction h with
  | start =>
    show (if rows = 0 then 0 else N) = N
    rw [if_neg hr0]
  | @step s s' l hs e ih =>
    have hrun := session_run hd.rowsPerBlock hr0 hd.columns hs s.decs fun _ _ _ _ _ => rfl
    rcases sstep_cases e with ⟨i, t, b, r, col, d, r', -, -, -, -, -, -, -, w1, w2, c8⟩ | ⟨hl, -, hw', -⟩
    · have hi : ∀ j, ∀ x ∈ (s.cols.cols j).writes, x.1 < N := by
        intro j x hx
        by_cases hj : j = i
        · subst hj
          exact hw j x (by rw [w1]; exact List.mem_append_left _ hx)
        · exact hw j x (by rw [w2 j hj]; exact hx)
      have hb : b < N := hw i (b, r) (by rw [w1]; simp)
      rw [c8, ih hi, if_neg (by omega)]
    · rw [other_nBlocks (good_reachable (P := withDec P s.decs) hn hrun).place hl e]
      exact ih fun j x hx => hw j x (by rw [hw' j]; exact hx)

/-- A table is opened, rows of its blocks are read and overwritten in all columns, and it is closed. Nothing fails, and
when all is done the table is closed. Then the file holds a table again. Every column has the blocks, and returned the
rows, of a program without threads that keeps one block in memory; whenever that program stores a block it is stored as
the decoded rows of one of its encodings. -/
theorem session_update (hn : ∀ i, 0 < (P i).threads) (hmc : ∀ i, 1 ≤ (P i).maxCache) (hc : 0 < c) (hr0 : 0 < rows)
    (hN : N ≤ noBlock) (hd : OnDisk ants K rows N man0 store blocks)
    (hw : ∀ i, Updates rows N [] noBlock (ops i prog)) {s : SState P}
    (h : SReach ants K (sinitial P k rows N man0 blocks prog) s) :
    s.cols.pc ≠ .failed ∧ s.cols.pc ≠ .unsupported ∧
    (s.cols.pc = .closed → ∃ store' blocks', OnDisk ants K rows N s.man store' blocks' ∧
      ∀ (i : Fin c) col, man0.columns[i.val]? = some col →
        ∃ q, Spec.Runs (Recoded (ants i) (K i rows col) col rows) rows (Spec.opened (blocks i)) (ops i prog) q ∧
          q.blocks = blocks' i ∧ q.outs = (s.cols.cols i).outs) := by
  have hr1 : rows ≠ 0 := by omega
  have hrun := session_run hd.rowsPerBlock hr1 hd.columns h s.decs fun _ _ _ _ _ => rfl
  have hup := multi_update (P := withDec P s.decs) hn hmc hc hr0 hN (le_refl N)
    (file := fun i b => if b < N then some (blocks i b) else none) (blocks := blocks)
    (fun i b hb => if_pos hb) hw hrun
  refine ⟨hup.1, hup.2.1, fun hcl => ?_⟩
  have hfin := hup.2.2.2 hcl
  obtain ⟨store', g1, g2, g3, g4⟩ := session_bytes hn hr1 hd h
  obtain ⟨fops, b1, b2⟩ := (session_inv hd.rowsPerBlock hr1 h).bytes
  refine ⟨store', fun i b => decOf (s.hist i) b
    (((Col.Mem.opened (blocks i)).run (decOf (s.hist i)) rows (ops i prog)).times b)
    (((Col.Mem.opened (blocks i)).run (decOf (s.hist i)) rows (ops i prog)).blocks b), ⟨g1, g2, by rw [g3, hd.columns], ?_, ?_⟩, ?_⟩
  · rw [← session_blocks hn hr1 hd h]
    refine session_count hn hr1 hd h fun i x hx => ?_
    have hx' : x.2 ∈ ofBlock (s.cols.cols i).writes x.1 := by
      unfold ofBlock
      exact List.mem_map.mpr ⟨x, List.mem_filter.mpr ⟨hx, by simp⟩, rfl⟩
    have hlog : ofBlock (s.cols.cols i).writes x.1 = _ := (hfin i).2.2 x.1
    rw [hlog] at hx'
    unfold ofBlock at hx'
    obtain ⟨y, y1, y2⟩ := List.mem_map.mp hx'
    obtain ⟨y3, y4⟩ := List.mem_filter.mp y1
    have y5 : y.1 = x.1 := by simpa using y4
    rw [← y5]
    exact log_inside (q := Col.Mem.opened (blocks i)) (hw i) (fun hx => by cases hx) (fun x hx => by cases hx) y y3
  · intro i col b hcol hb
    rw [g3] at hcol
    obtain ⟨d, d1, d2⟩ := g4 i col b _ hcol ((hfin i).2.1 b hb)
    refine ⟨d, d1, ?_⟩
    have hlog : ofBlock (s.cols.cols i).writes b = _ := (hfin i).2.2 b
    rw [timesWritten_eq, hlog] at d2
    exact d2
  · intro i col hcol
    have hposs : Possible (Recoded (ants i) (K i rows col) col rows) (decOf (s.hist i))
        ((Col.Mem.opened (blocks i)).run (decOf (s.hist i)) rows (ops i prog)).log := by
      intro b kk r hk
      refine (b2 i col hcol).possible b kk r ?_
      have hlog : ofBlock (s.cols.cols i).writes b = _ := (hfin i).2.2 b
      rw [hlog]
      exact hk
    obtain ⟨q, q1, q2⟩ := runs_of_mem (sp := Spec.opened (blocks i)) (hw i)
      ⟨rfl, rfl, rfl, rfl, fun b => rfl⟩ hposs
    exact ⟨q, q1, funext q2.blocks, q2.outs.trans (hfin i).1.symm⟩

end

end Dysco.Session
