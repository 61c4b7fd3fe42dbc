import Verif.SessionProps
import Verif.WorldEnd

/-!
# A session comes to its end

If all rows that can get into a block can be encoded and decoded, a session can always be closed.

The examples are at the end of `SessionLife.lean`.
-/

namespace Dysco.Session
open Col Multi StMan End BytePacker Layout World

variable {κ : Type} {c : Nat} {α : Fin c → Type} {P : (i : Fin c) → Params (DataRow (α i)) κ} {ants : Fin c → Bool}
  {K : Codecs α}

/-- A property `G` of the rows of blocks that a program keeps: `E b r r'` means that block `b` with rows `r` is stored
as `r'`. -/
structure Keeps {V : Type} (G : Nat → Rows V → Prop) (E : Nat → Rows V → Rows V → Prop) (m N : Nat)
    (blocks : Nat → Rows V) (ops : List (Op V)) : Prop where
  start : ∀ b, b < N → G b (blocks b)
  put : ∀ row v, Op.put row v ∈ ops → ∀ r, G (row / m) r → G (row / m) (r.set (row % m) v)
  code : ∀ b r r', b < N → G b r → E b r r' → G b r'

section
variable {V : Type} {G : Nat → Rows V → Prop} {dec : Nat → Nat → Rows V → Rows V} {m N : Nat}

/-- All blocks that a program stores have the property. -/
theorem log_good {ops : List (Op V)} {q : Col.Mem V} {d : List Nat} (hu : Updates m N d q.cur ops)
    (hdec : ∀ b k r, b < N → G b r → G b (dec b k r))
    (hput : ∀ row v, Op.put row v ∈ ops → ∀ r, G (row / m) r → G (row / m) (r.set (row % m) v))
    (hb : ∀ b, b < N → G b (q.blocks b)) (hbuf : q.cur < N → G q.cur q.buf) (hc : q.changed = true → q.cur < N)
    (hl : ∀ x ∈ q.log, x.1 < N ∧ G x.1 x.2) : ∀ x ∈ (q.run dec m ops).log, x.1 < N ∧ G x.1 x.2 := by
  have hflush : ∀ q : Col.Mem V, (∀ b, b < N → G b (q.blocks b)) → (q.cur < N → G q.cur q.buf) →
      (q.changed = true → q.cur < N) → (∀ x ∈ q.log, x.1 < N ∧ G x.1 x.2) →
      (∀ b, b < N → G b (q.flush.blocks b)) ∧ ∀ x ∈ q.flush.log, x.1 < N ∧ G x.1 x.2 := by
    intro q hb hbuf hc hl
    unfold Col.Mem.flush
    split
    · rename_i h
      refine ⟨fun b hbN => ?_, fun x hx => ?_⟩
      · show G b (Function.update q.blocks q.cur q.buf b)
        by_cases hbc : b = q.cur
        · subst hbc
          rw [Function.update_self]
          exact hbuf hbN
        · rw [Function.update_of_ne hbc]
          exact hb b hbN
      · rcases List.mem_append.mp hx with hx | hx
        · exact hl x hx
        · rw [List.mem_singleton.mp hx]
          exact ⟨hc h, hbuf (hc h)⟩
    · exact ⟨hb, hl⟩
  have hvisit : ∀ (q : Col.Mem V) b, b < N → (∀ b, b < N → G b (q.blocks b)) → (q.cur < N → G q.cur q.buf) →
      (q.changed = true → q.cur < N) → (∀ x ∈ q.log, x.1 < N ∧ G x.1 x.2) →
      (q.visit dec b).cur = b ∧ (∀ b', b' < N → G b' ((q.visit dec b).blocks b')) ∧ G b (q.visit dec b).buf ∧
        ∀ x ∈ (q.visit dec b).log, x.1 < N ∧ G x.1 x.2 := by
    intro q b hbN hb hbuf hc hl
    unfold Col.Mem.visit
    split
    · rename_i h
      subst h
      exact ⟨rfl, hb, hbuf hbN, hl⟩
    · obtain ⟨f1, f2⟩ := hflush q hb hbuf hc hl
      exact ⟨rfl, f1, hdec b _ _ hbN (f1 b hbN), f2⟩
  induction ops generalizing q d with
  | nil => exact hu.elim
  | cons op ops ih =>
    have hput' : ∀ row v, Op.put row v ∈ ops → ∀ r, G (row / m) r → G (row / m) (r.set (row % m) v) :=
      fun row v hm => hput row v (List.mem_cons_of_mem _ hm)
    cases op with
    | put row v =>
      simp only [Updates] at hu
      obtain ⟨v1, v2, v3, v4⟩ := hvisit q (row / m) hu.1 hb hbuf hc hl
      refine ih (q := q.op dec m (.put row v)) (d := row / m :: d) ?_ hput' v2 (fun _ => ?_) (fun _ => ?_) v4
      · show Updates m N _ (q.visit dec (row / m)).cur ops
        rw [v1]; exact hu.2.2
      · show G (q.visit dec (row / m)).cur _
        rw [v1]
        exact hput row v List.mem_cons_self _ v3
      · show (q.visit dec (row / m)).cur < N
        rw [v1]; exact hu.1
    | get row =>
      simp only [Updates] at hu
      obtain ⟨v1, v2, v3, v4⟩ := hvisit q (row / m) hu.1 hb hbuf hc hl
      refine ih (q := q.op dec m (.get row)) (d := d) ?_ hput' v2 (fun _ => ?_) (fun _ => ?_) v4
      · show Updates m N _ (q.visit dec (row / m)).cur ops
        rw [v1]; exact hu.2
      · show G (q.visit dec (row / m)).cur (q.visit dec (row / m)).buf
        rw [v1]
        exact v3
      · show (q.visit dec (row / m)).cur < N
        rw [v1]; exact hu.1
    | close =>
      have hnil : ops = [] := by
        cases ops with
        | nil => rfl
        | cons _ _ => exact hu.elim
      subst hnil
      exact (hflush q hb hbuf hc hl).2
    | addColumn => cases ops <;> exact hu.elim
    | otherInit _ => cases ops <;> exact hu.elim

end

section
variable {k : κ} {rows N : Nat} {man0 : Man} {store : Store} {blocks : Blocks α}
  {prog : List (MOp fun i => DataRow (α i))} {G : (i : Fin c) → Nat → Rows (DataRow (α i)) → Prop}

/-- Every block that is encoded has the properties that the program keeps. -/
theorem session_good (hn : ∀ i, 0 < (P i).threads) (hr0 : 0 < rows)
    (hN : N ≤ noBlock) (hd : OnDisk ants K rows N man0 store blocks)
    (hw : ∀ i, Updates rows N [] noBlock (ops i prog))
    (hG : ∀ (i : Fin c) col, man0.columns[i.val]? = some col →
      Keeps (G i) (Recoded (ants i) (K i rows col) col rows) rows N (blocks i) (ops i prog)) {s : SState P}
    (h : SReach ants K (sinitial P k rows N man0 blocks prog) s) :
    (∀ i, ∀ x ∈ s.hist i, G i x.1 x.2) ∧
    ∀ i t b r, (s.cols.cols i).threads t = .encode b r → b < N ∧ G i b r := by
  have hcolumn : ∀ i : Fin c, ∃ col, man0.columns[i.val]? = some col := fun i =>
    ⟨_, List.getElem?_eq_getElem (by rw [hd.columns]; exact i.isLt)⟩
  have pend : ∀ {s : SState P}, SReach ants K (sinitial P k rows N man0 blocks prog) s →
      (∀ i, ∀ x ∈ s.hist i, G i x.1 x.2) →
      ∀ i t b r, (s.cols.cols i).threads t = .encode b r → b < N ∧ G i b r := by
    intro s h hh i t b r ht
    have hrun := session_run hd.rowsPerBlock (by omega) hd.columns h s.decs fun _ _ _ _ _ => rfl
    have hm := multi_stores (P := withDec P s.decs) hn hr0 hN (le_refl N)
      (file := fun i b => if b < N then some (blocks i b) else none) (blocks := blocks)
      (fun i b hb => if_pos hb) hw hrun i (t := t) (b := b) (r := r) ht
    obtain ⟨col, hcol⟩ := hcolumn i
    refine log_good (G := G i) (q := Col.Mem.opened (blocks i)) (hw i) ?_ (hG i col hcol).put (hG i col hcol).start
      (fun hx => absurd hx (by show ¬ noBlock < N; omega)) (fun hx => by cases hx) (fun x hx => by cases hx) (b, r) hm
    intro b k r hb hg
    show G i b (decOf (s.hist i) b k r)
    unfold decOf
    split
    · exact hg
    · cases hx : (ofBlock (s.hist i) b)[k - 1]? with
      | none => exact hg
      | some r' => exact hh i _ (ofBlock_sub (List.mem_of_getElem? hx))
  have hist : ∀ i, ∀ x ∈ s.hist i, G i x.1 x.2 := by
    induction h with
    | start => intro i x hx; cases hx
    | @step s s' l hs e ih =>
      intro i x hx
      have hinv := session_inv hd.rowsPerBlock (by omega) hs
      rcases sstep_cases e with ⟨j, t, b, r, col, d, r', -, c0, c1, c2, c3, -, c5, -⟩ | ⟨-, c1, -⟩
      · rw [c5] at hx
        by_cases hij : i = j
        · subst hij
          rw [Function.update_self] at hx
          rcases List.mem_append.mp hx with hx | hx
          · exact ih i x hx
          · rw [List.mem_singleton.mp hx]
            obtain ⟨hb, hg⟩ := pend hs ih i t b r c0
            obtain ⟨ops, b1, -⟩ := hinv.bytes
            obtain ⟨n1, n2⟩ := blockSteps_columns ops man0
            rw [b1, n1] at c1
            rw [b1, n2, hd.rowsPerBlock] at c2 c3
            exact (hG i col c1).code b r r' hb hg ⟨d, c2, c3⟩
        · rw [Function.update_of_ne hij] at hx
          exact ih i x hx
      · rw [c1] at hx
        exact ih i x hx
  exact ⟨hist, pend h hist⟩

/-- Every step of the columns is a step of the session, if the block can be encoded and decoded. -/
theorem session_lift {s : SState P} {l : MLabel P} {S : MState P}
    (henc : ∀ i t b r, (s.cols.cols i).threads t = .encode b r → ∃ col r', s.man.columns[i.val]? = some col ∧
      Recoded (ants i) (K i s.man.rowsPerBlock col) col s.man.rowsPerBlock b r r')
    (e : mstep (with_ s.decs s.cols) (label s.decs l) = some (with_ s.decs S)) :
    ∃ s', SStep ants K s l s' ∧ s'.cols = S := by
  have : ∃ m' h', SEffect ants K s.cols l s.man m' s.hist h' := by
    unfold SEffect
    cases l with
    | thread i t =>
      simp only
      split
      · rename_i b r hx
        obtain ⟨col, r', h1, d, h2, h3⟩ := henc i t b r hx
        exact ⟨_, _, col, d, r', h1, h2, h3, rfl, rfl⟩
      · exact ⟨_, _, rfl, rfl⟩
    | client junk =>
      simp only
      split
      · split
        · exact ⟨_, _, ⟨⟨0, fun _ => 0⟩, rfl⟩, rfl⟩
        · exact ⟨_, _, rfl, rfl⟩
      · exact ⟨_, _, rfl, rfl⟩
    | spuriousThread i t => exact ⟨_, _, rfl, rfl⟩
    | spuriousClient i => exact ⟨_, _, rfl, rfl⟩
  obtain ⟨m', h', he⟩ := this
  exact ⟨⟨S, m', h'⟩, ⟨e, he⟩, rfl⟩

theorem SReach.trans {s0 s1 s2 : SState P} (h : SReach ants K s0 s1) (h' : SReach ants K s1 s2) : SReach ants K s0 s2 := by
  induction h' with
  | start => exact h
  | step _ e ih => exact .step ih e

/-- If rows with the property can be encoded and decoded, then a session can at every moment be continued until it is
closed, and it is closed when no step of the client and the threads is possible. -/
theorem session_closes (hn : ∀ i, 0 < (P i).threads) (hmc : ∀ i, 1 ≤ (P i).maxCache) (hc : 0 < c) (hr0 : 0 < rows)
    (hN : N ≤ noBlock) (hd : OnDisk ants K rows N man0 store blocks)
    (hw : ∀ i, Updates rows N [] noBlock (ops i prog))
    (hG : ∀ (i : Fin c) col, man0.columns[i.val]? = some col →
      Keeps (G i) (Recoded (ants i) (K i rows col) col rows) rows N (blocks i) (ops i prog))
    (hE : ∀ (i : Fin c) col b r, man0.columns[i.val]? = some col → b < N → G i b r →
      ∃ r', Recoded (ants i) (K i rows col) col rows b r r') {s : SState P}
    (h : SReach ants K (sinitial P k rows N man0 blocks prog) s) (junk : (i : Fin c) → Nat → DataRow (α i)) :
    (∃ s', SReach ants K s s' ∧ s'.cols.pc = .closed) ∧
    ((∀ l s', MLabel.real l = true → ¬ SStep ants K s l s') → s.cols.pc = .closed) := by
  have hcolumn : ∀ i : Fin c, ∃ col, man0.columns[i.val]? = some col := fun i =>
    ⟨_, List.getElem?_eq_getElem (by rw [hd.columns]; exact i.isLt)⟩
  have henc : ∀ {s : SState P}, SReach ants K (sinitial P k rows N man0 blocks prog) s →
      ∀ i t b r, (s.cols.cols i).threads t = .encode b r → ∃ col r', s.man.columns[i.val]? = some col ∧
        Recoded (ants i) (K i s.man.rowsPerBlock col) col s.man.rowsPerBlock b r r' := by
    intro s h i t b r ht
    obtain ⟨hb, hg⟩ := (session_good hn hr0 hN hd hw hG h).2 i t b r ht
    obtain ⟨col, hcol⟩ := hcolumn i
    obtain ⟨r', hr'⟩ := hE i col b r hcol hb hg
    obtain ⟨ops, b1, -⟩ := (session_inv hd.rowsPerBlock (by omega) h).bytes
    obtain ⟨n1, n2⟩ := blockSteps_columns ops man0
    refine ⟨col, r', by rw [b1, n1]; exact hcol, ?_⟩
    rw [b1, n2, hd.rowsPerBlock]
    exact hr'
  have hstuck : ∀ {s : SState P}, SReach ants K (sinitial P k rows N man0 blocks prog) s →
      (∀ l s', MLabel.real l = true → ¬ SStep ants K s l s') → s.cols.pc = .closed := by
    intro s h hno
    have hrun := session_run hd.rowsPerBlock (by omega) hd.columns h s.decs fun _ _ _ _ _ => rfl
    have hup := multi_update (P := withDec P s.decs) hn hmc hc hr0 hN (le_refl N)
      (file := fun i b => if b < N then some (blocks i b) else none) (blocks := blocks)
      (fun i b hb => if_pos hb) hw hrun
    have none : ∀ l : MLabel P, MLabel.real l = true → mstep (with_ s.decs s.cols) (label s.decs l) = none := by
      intro l hl
      cases hx : mstep (with_ s.decs s.cols) (label s.decs l) with
      | none => rfl
      | some S =>
        obtain ⟨s', hs', -⟩ := session_lift (S := without s.decs S) (henc h) (by rw [with_without]; exact hx)
        exact (hno l _ hl hs').elim
    exact hup.2.2.1 junk (none (.client junk) rfl) (fun i t => none (.thread i t) rfl)
  refine ⟨?_, hstuck h⟩
  induction hwk : mwork s.cols using Nat.strong_induction_on generalizing s with
  | _ w ih =>
    by_cases hex : ∃ l s', MLabel.real l = true ∧ SStep ants K s l s'
    · obtain ⟨l, s', hl, e⟩ := hex
      have hrun := session_run hd.rowsPerBlock (by omega) hd.columns h s.decs fun _ _ _ _ _ => rfl
      have hlt : mwork s'.cols < w := by
        have h1 := mstep_work (P := withDec P s.decs) (good_reachable (P := withDec P s.decs) hn hrun).place e.1
        have h2 : MLabel.real (label s.decs l) = true := by cases l <;> first | rfl | cases hl
        simp only [h2, if_true] at h1
        have h3 : mwork (with_ s.decs s.cols) = mwork s.cols := rfl
        have h4 : mwork (with_ s.decs s'.cols) = mwork s'.cols := rfl
        omega
      obtain ⟨s2, g1, g2⟩ := ih _ hlt (.step h e) rfl
      exact ⟨s2, SReach.trans (.step .start e) g1, g2⟩
    · push Not at hex
      exact ⟨s, .start, hstuck h hex⟩

end

end Dysco.Session
