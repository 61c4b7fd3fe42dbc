import Verif.ColumnSeq

/-! # Writing all rows of a column in order -/

namespace Dysco.Col
variable {V K : Type} {n : Nat} {p : Params V K}

/-- Put the rows `r`, `r + 1`, …, `R - 1` and close; in between, other columns may fix the rows per block. -/
def Whole (m : Nat) (v : Nat → V) (R : Nat) : Nat → List (Op V) → Prop
  | r, [.close] => r = R
  | r, .put r' v' :: rest => r' = r ∧ v' = v r ∧ r < R ∧ Whole m v R (r + 1) rest
  | r, .otherInit m' :: rest => m' = m ∧ Whole m v R r rest
  | _, _ => False

/-- The first `c` rows of block `b` are as put. There are no others, or there are rows up to the length of a block: these
were decoded from the block that is in the file because another column has one of that number. -/
structure Filled (m : Nat) (v : Nat → V) (b c : Nat) (rows : Rows V) : Prop where
  len : rows.len ≤ m
  count : c ≤ rows.len
  get : ∀ j, j < c → rows.get j = some (v (b * m + j))
  others : rows.len = c ∨ rows.len = m

/-- Number of rows of block `b`. -/
def rowsIn (m R b : Nat) : Nat := min m (R - b * m)

/-- The first `q` blocks were stored, once each and in order. -/
def StoredUpTo (m : Nat) (v : Nat → V) (R q : Nat) (s : State V K n) : Prop :=
  ∃ g : Nat → Rows V, s.stores = (List.range q).map (fun b => (b, g b)) ∧
    ∀ b, b < q → Filled m v b (rowsIn m R b) (g b)

/-- The client after row `r` was put, with the rows per block known. -/
structure Known (m : Nat) (v : Nat → V) (R r : Nat) (s : State V K n) : Prop where
  rpb : s.rowsPerBlock = m
  none : r = 0 → s.current = noBlock ∧ s.changed = false ∧ s.stores = [] ∧ s.buffer = Rows.empty
  some : 0 < r → s.current = (r - 1) / m ∧ s.changed = true ∧
    Filled m v ((r - 1) / m) (r - (r - 1) / m * m) s.buffer ∧ StoredUpTo m v R ((r - 1) / m) s

/-- The same before the rows per block are known. -/
structure Unknown (p : Params V K) (m : Nat) (v : Nat → V) (R r : Nat) (s : State V K n) : Prop where
  rpb : s.rowsPerBlock = 0
  more : m < R
  le : r ≤ m
  stores : s.stores = []
  none : r = 0 → s.current = noBlock ∧ s.changed = false ∧ s.buffer = Rows.empty
  some : 0 < r → s.current = 0 ∧ s.changed = true ∧ s.last = p.key 0 ∧ Filled m v 0 r s.buffer ∧ s.buffer.len = r

/-- Invariant of writing all rows in order, by the place of the client. Not in the code. -/
def WholeOK (p : Params V K) (m : Nat) (v : Nat → V) (R : Nat) (s : State V K n) : Prop :=
  match s.client with
  | .idle => ∃ r, Whole m v R r s.todo ∧ r ≤ R ∧ (Unknown p m v R r s ∨ Known m v R r s)
  | .store (.load k) | .storeWait (.load k) => ∃ q, k = .put ((q + 1) * m) (v ((q + 1) * m)) ∧ (q + 1) * m < R ∧
      Whole m v R ((q + 1) * m + 1) s.todo ∧ s.rowsPerBlock = m ∧ s.current = q ∧
      Filled m v q m s.buffer ∧ StoredUpTo m v R q s
  | .load k => ∃ q, k = .put (q * m) (v (q * m)) ∧ q * m < R ∧
      Whole m v R (q * m + 1) s.todo ∧ s.rowsPerBlock = m ∧ s.buffer = Rows.empty ∧ StoredUpTo m v R q s
  | .store .stop | .storeWait .stop => s.rowsPerBlock = m ∧ s.current = (R - 1) / m ∧
      Filled m v ((R - 1) / m) (R - (R - 1) / m * m) s.buffer ∧ StoredUpTo m v R ((R - 1) / m) s
  | .stopLock | .stopWait => s.started = true ∧ s.rowsPerBlock = m ∧ StoredUpTo m v R ((R - 1) / m + 1) s
  | .join | .closed => s.rowsPerBlock = m ∧ StoredUpTo m v R ((R - 1) / m + 1) s
  | _ => False

theorem StoredUpTo.same {m R q : Nat} {v : Nat → V} {s s' : State V K n} (h : StoredUpTo m v R q s)
    (e : s'.stores = s.stores) : StoredUpTo m v R q s' := by
  unfold StoredUpTo
  rw [e]
  exact h

theorem Known.same {m R r : Nat} {v : Nat → V} {s s' : State V K n} (h : Known m v R r s)
    (e1 : s'.rowsPerBlock = s.rowsPerBlock) (e2 : s'.buffer = s.buffer) (e3 : s'.current = s.current)
    (e4 : s'.changed = s.changed) (e5 : s'.stores = s.stores) : Known m v R r s' :=
  ⟨e1.trans h.rpb, fun hr => by rw [e2, e3, e4, e5]; exact h.none hr, fun hr => by
    obtain ⟨a1, a2, a3, a4⟩ := h.some hr
    rw [e2, e3, e4]
    exact ⟨a1, a2, a3, a4.same e5⟩⟩

theorem Unknown.same {m R r : Nat} {v : Nat → V} {s s' : State V K n} (h : Unknown p m v R r s)
    (e1 : s'.rowsPerBlock = s.rowsPerBlock) (e2 : s'.buffer = s.buffer) (e3 : s'.current = s.current)
    (e4 : s'.changed = s.changed) (e5 : s'.stores = s.stores) (e6 : s'.last = s.last) : Unknown p m v R r s' :=
  ⟨e1.trans h.rpb, h.more, h.le, e5.trans h.stores, fun hr => by rw [e2, e3, e4]; exact h.none hr,
    fun hr => by rw [e2, e3, e4, e6]; exact h.some hr⟩

theorem wholeOK_own {m R : Nat} {v : Nat → V} {s s' : State V K n} (h : WholeOK p m v R s) (ho : OwnSame s s')
    (hc : s'.client = s.client ∨ s'.client = s.client.wake) : WholeOK p m v R s' := by
  have hst : ∀ {q}, StoredUpTo m v R q s → StoredUpTo m v R q s' := fun hq => hq.same ho.stores
  unfold WholeOK at h ⊢
  match hpc : s.client with
  | .idle =>
    have hc : s'.client = .idle := by
      rcases hc with hc | hc
      · exact hc.trans hpc
      · rw [hc, hpc]; rfl
    simp only [hpc, hc] at h ⊢
    obtain ⟨r, h1, h2, h3⟩ := h
    refine ⟨r, by rw [ho.todo]; exact h1, h2, ?_⟩
    rcases h3 with h3 | h3
    · exact Or.inl (h3.same ho.rowsPerBlock ho.buffer ho.current ho.changed ho.stores ho.last)
    · exact Or.inr (h3.same ho.rowsPerBlock ho.buffer ho.current ho.changed ho.stores)
  | .store (.load k) | .storeWait (.load k) =>
    simp only [hpc] at h
    have : ∃ q, k = .put ((q + 1) * m) (v ((q + 1) * m)) ∧ (q + 1) * m < R ∧
      Whole m v R ((q + 1) * m + 1) s'.todo ∧ s'.rowsPerBlock = m ∧ s'.current = q ∧
      Filled m v q m s'.buffer ∧ StoredUpTo m v R q s' := by
      obtain ⟨q, h1, h2, h3, h4, h5, h6, h7⟩ := h
      rw [ho.todo, ho.rowsPerBlock, ho.current, ho.buffer]
      exact ⟨q, h1, h2, h3, h4, h5, h6, hst h7⟩
    rcases hc with hc | hc <;> rw [hc, hpc] <;> exact this
  | .load k =>
    simp only [hpc] at h
    have : ∃ q, k = .put (q * m) (v (q * m)) ∧ q * m < R ∧
      Whole m v R (q * m + 1) s'.todo ∧ s'.rowsPerBlock = m ∧ s'.buffer = Rows.empty ∧ StoredUpTo m v R q s' := by
      obtain ⟨q, h1, h2, h3, h4, h5, h6⟩ := h
      rw [ho.todo, ho.rowsPerBlock, ho.buffer]
      exact ⟨q, h1, h2, h3, h4, h5, hst h6⟩
    rcases hc with hc | hc <;> rw [hc, hpc] <;> exact this
  | .store .stop | .storeWait .stop =>
    simp only [hpc] at h
    have : s'.rowsPerBlock = m ∧ s'.current = (R - 1) / m ∧
      Filled m v ((R - 1) / m) (R - (R - 1) / m * m) s'.buffer ∧ StoredUpTo m v R ((R - 1) / m) s' := by
      rw [ho.rowsPerBlock, ho.current, ho.buffer]
      exact ⟨h.1, h.2.1, h.2.2.1, hst h.2.2.2⟩
    rcases hc with hc | hc <;> rw [hc, hpc] <;> exact this
  | .stopLock | .stopWait =>
    simp only [hpc] at h
    have : s'.started = true ∧ s'.rowsPerBlock = m ∧ StoredUpTo m v R ((R - 1) / m + 1) s' := by
      rw [ho.rowsPerBlock, ho.started]
      exact ⟨h.1, h.2.1, hst h.2.2⟩
    rcases hc with hc | hc <;> rw [hc, hpc] <;> exact this
  | .join | .closed =>
    simp only [hpc] at h
    have : s'.rowsPerBlock = m ∧ StoredUpTo m v R ((R - 1) / m + 1) s' := by
      rw [ho.rowsPerBlock]
      exact ⟨h.1, hst h.2⟩
    rcases hc with hc | hc <;> rw [hc, hpc] <;> exact this
  | .getLock _ | .getWait _ | .prepStart | .prepLock | .prepWait | .prepJoin | .failed | .unsupported =>
    simp only [hpc] at h

theorem filled_empty (m : Nat) (v : Nat → V) (b : Nat) : Filled m v b 0 Rows.empty :=
  ⟨Nat.zero_le _, Nat.zero_le _, fun j hj => absurd hj (by omega), .inl rfl⟩

theorem filled_set {m b c : Nat} {v : Nat → V} {rows : Rows V} (h : Filled m v b c rows) (hc : c < m) :
    Filled m v b (c + 1) (rows.set c (v (b * m + c))) := by
  obtain ⟨h1, h2, h3, h4⟩ := h
  refine ⟨?_, ?_, ?_, ?_⟩
  · simp only [Rows.set]; split <;> omega
  · simp only [Rows.set]; split <;> omega
  rotate_left
  · simp only [Rows.set]; split <;> omega
  · intro j hj
    simp only [Rows.set]
    by_cases hjc : j = c
    · rw [if_pos hjc, hjc]
    · rw [if_neg hjc, if_pos (by omega)]
      exact h3 j (by omega)

theorem stored_nil {m R : Nat} {v : Nat → V} {s : State V K n} (h : s.stores = []) : StoredUpTo m v R 0 s :=
  ⟨fun _ => Rows.empty, by rw [h]; rfl, fun b hb => absurd hb (by omega)⟩

theorem stored_succ {m R q : Nat} {v : Nat → V} {s s' : State V K n} (h : StoredUpTo m v R q s) {rows : Rows V}
    (hr : Filled m v q (rowsIn m R q) rows) (e : s'.stores = s.stores ++ [(q, rows)]) :
    StoredUpTo m v R (q + 1) s' := by
  obtain ⟨g, h1, h2⟩ := h
  refine ⟨fun b => if b = q then rows else g b, ?_, ?_⟩
  · rw [e, h1, List.range_succ, List.map_append]
    congr 1
    · apply List.map_congr_left
      intro b hb
      have : b < q := List.mem_range.mp hb
      simp only [if_neg (show ¬ b = q by omega)]
    · simp
  · intro b hb
    simp only
    by_cases hbq : b = q
    · subst hbq
      rw [if_pos rfl]
      exact hr
    · rw [if_neg hbq]
      exact h2 b (by omega)

theorem ofBlock_range (g : Nat → Rows V) (q b : Nat) :
    ofBlock ((List.range q).map fun b => (b, g b)) b = if b < q then [g b] else [] := by
  induction q with
  | zero => simp [ofBlock]
  | succ q ih =>
    rw [List.range_succ, List.map_append, List.map_singleton, ofBlock_append, ih]
    by_cases h1 : q = b
    · subst h1
      simp
    · rw [if_neg h1]
      by_cases h2 : b < q
      · rw [if_pos h2, if_pos (by omega)]
      · rw [if_neg h2, if_neg (by omega)]

/-- A block that was not stored is not in the file. -/
theorem file_none {f : Nat → Option (Rows V)} {s : State V K n} (h : Core p f s) {b : Nat}
    (hb : ofBlock s.stores b = []) (hf : f b = none) : s.file b = none := by
  have hw : ofBlock s.writes b = [] := by
    cases hc : s.cache.has b with
    | false => rw [← h.settled b (Or.inl hc)]; exact hb
    | true =>
      obtain ⟨it, hit⟩ := (has_iff _ _).mp hc
      by_cases hw : ∃ i, s.threads i = .written b
      · rw [← h.settled b (Or.inr hw)]; exact hb
      · push Not at hw
        have := h.pending b it hit hw
        rw [hb] at this
        simp at this
  rw [h.file b, hw, hf]
  rfl

theorem div_last {m q : Nat} (hm : 0 < m) : ((q + 1) * m - 1) / m = q := by
  rw [Nat.div_eq_iff hm]
  have : (q + 1) * m = q * m + m := by ring
  omega

/-- The block of the next row: the current one, or the next one if that is full. -/
theorem block_next {m r : Nat} (hm : 0 < m) (hr : 0 < r) :
    (r / m = (r - 1) / m ∧ r - (r - 1) / m * m < m ∧ r % m = r - (r - 1) / m * m) ∨
      ∃ q, r = (q + 1) * m ∧ (r - 1) / m = q ∧ r / m = q + 1 := by
  have h1 := Nat.div_add_mod (r - 1) m
  have h2 := Nat.mod_lt (r - 1) hm
  set q := (r - 1) / m
  have h3 : m * q = q * m := Nat.mul_comm _ _
  by_cases hx : (r - 1) % m = m - 1
  · right
    have hq : r = (q + 1) * m := by
      have : (q + 1) * m = q * m + m := by ring
      omega
    refine ⟨q, hq, rfl, ?_⟩
    rw [hq, Nat.mul_div_cancel _ hm]
  · left
    have hd : r / m = q := by
      rw [Nat.div_eq_iff hm]
      omega
    have h4 := Nat.div_add_mod r m
    rw [hd] at h4
    exact ⟨hd, by omega, by omega⟩

/-- Putting the next row when the rows per block are known. -/
theorem whole_access {m R r : Nat} {v : Nat → V} {s : State V K n} (hm : 0 < m)
    (hk : Known m v R r s) (hr : r < R) (hw : Whole m v R (r + 1) s.todo) :
    WholeOK p m v R (s.access (.put r (v r))) := by
  have hrpb := hk.rpb
  by_cases h0 : r = 0
  · subst h0
    obtain ⟨h1, h2, h3, h4⟩ := hk.none rfl
    unfold State.access
    rw [if_pos (by
      rw [h1]
      simp only [Next.row, Nat.zero_div]
      decide), if_neg (by rw [h2]; simp)]
    exact ⟨0, by simp, by simpa using hr, by simpa using hw, hrpb, h4, stored_nil h3⟩
  · obtain ⟨h1, h2, h3, h4⟩ := hk.some (by omega)
    unfold State.access
    rcases block_next hm (show 0 < r by omega) with ⟨b1, b2, b3⟩ | ⟨q, b1, b2, b3⟩
    · rw [if_neg (by
        rw [h1, hrpb]
        simp only [Next.row, b1]
        simp)]
      refine ⟨r + 1, hw, by omega, Or.inr ⟨hrpb, fun hx => absurd hx (by omega), fun _ => ?_⟩⟩
      rw [Nat.add_sub_cancel, b1]
      refine ⟨h1, rfl, ?_, h4.same rfl⟩
      simp only [State.finish]
      rw [hrpb, b3]
      have hsub : r + 1 - (r - 1) / m * m = (r - (r - 1) / m * m) + 1 := by
        have := Nat.div_mul_le_self (r - 1) m
        omega
      rw [hsub]
      have hv : v r = v ((r - 1) / m * m + (r - (r - 1) / m * m)) := by
        congr 1
        have := Nat.div_mul_le_self (r - 1) m
        omega
      rw [hv]
      exact filled_set h3 b2
    · rw [if_pos (by
        rw [h1, hrpb]
        simp only [Next.row, b2, b3]
        omega), if_pos h2]
      rw [b2] at h3 h4 h1
      have hfull : (q + 1) * m - q * m = m := by
        have : (q + 1) * m = q * m + m := by ring
        omega
      rw [b1, hfull] at h3
      subst b1
      exact ⟨q, rfl, hr, hw, hrpb, h1, h3, h4⟩

theorem unknown_known {m R r : Nat} {v : Nat → V} {s s' : State V K n} (hu : Unknown p m v R r s)
    (e1 : s'.rowsPerBlock = m) (e2 : s'.buffer = s.buffer) (e3 : s'.current = s.current)
    (e4 : s'.changed = s.changed) (e5 : s'.stores = s.stores) : Known m v R r s' := by
  refine ⟨e1, fun h0 => ?_, fun h0 => ?_⟩
  · obtain ⟨a1, a2, a3⟩ := hu.none h0
    rw [e2, e3, e4, e5]
    exact ⟨a1, a2, hu.stores, a3⟩
  · obtain ⟨a1, a2, a3, a4, a5⟩ := hu.some h0
    have hle := hu.le
    have hq : (r - 1) / m = 0 := Nat.div_eq_of_lt (by omega)
    rw [e2, e3, e4, hq]
    exact ⟨a1, a2, by simpa using a4, stored_nil (e5.trans hu.stores)⟩

theorem whole_step {m R : Nat} {v : Nat → V} {s s' : State V K p.threads} (hm : 0 < m)
    (hR0 : 0 < R) (hR : R ≤ noBlock) (hsame : ∀ r, 0 < r → r < m → p.differs (p.key r) (p.key 0) = false)
    (hdiff : m < R → p.differs (p.key m) (p.key 0) = true)
    (hinv : Inv p (fun _ => none) s) (h : WholeOK p m v R s)
    {l : Label V p.threads} (e : step p s l = some s') : WholeOK p m v R s' := by
  by_cases hl : ∀ junk, l ≠ .client junk
  · obtain ⟨ho, hc⟩ := other_own e hl
    exact wholeOK_own h ho hc
  · push Not at hl
    obtain ⟨junk, rfl⟩ := hl
    have hcl := hinv.client
    unfold ClientOK at hcl
    unfold WholeOK at h
    simp only [step] at e
    unfold clientStep at e
    match hpc : s.client with
    | .idle =>
      simp only [hpc] at e h hcl
      obtain ⟨r, hw, hrR, hst⟩ := h
      cases ht : s.todo with
      | nil => rw [ht] at e; cases e
      | cons op rest =>
        rw [ht] at e hw
        injection e with e
        cases op with
        | put row v' =>
          obtain ⟨rfl, rfl, hr, hw⟩ : row = r ∧ v' = v r ∧ r < R ∧ Whole m v R (r + 1) rest := by
            cases rest <;> exact hw
          rcases hst with hu | hk
          · simp only [State.call, State.put, hu.rpb, ne_eq, not_true_eq_false, if_false] at e
            by_cases h0 : row = 0
            · subst h0
              obtain ⟨a1, a2, a3⟩ := hu.none rfl
              rw [if_pos (by rw [a3]; rfl)] at e
              subst e
              refine ⟨1, hw, by omega, Or.inl ⟨rfl, hu.more, by omega, hu.stores, fun hx => by omega, fun _ => ?_⟩⟩
              refine ⟨rfl, rfl, rfl, ?_, ?_⟩
              · have := filled_set (c := 0) (filled_empty m v 0) hm
                rw [a3]
                simpa using this
              · rw [a3]; rfl
            · obtain ⟨a1, a2, a3, a4, a5⟩ := hu.some (by omega)
              rw [if_neg (by rw [a5]; omega), a3] at e
              rcases Nat.lt_or_ge row m with hlt | hge
              · rw [if_neg (by rw [hsame row (by omega) hlt]; simp)] at e
                subst e
                refine ⟨row + 1, hw, by omega, Or.inl ⟨rfl, hu.more, by omega, hu.stores, fun hx => by omega,
                  fun _ => ⟨a1, rfl, rfl, ?_, ?_⟩⟩⟩
                · have := filled_set a4 hlt
                  simpa using this
                · simp only [Rows.set]
                  rw [if_pos (by omega)]
              · have hrm : row = m := by have := hu.le; omega
                subst hrm
                rw [if_pos (hdiff hu.more), if_neg (by omega),
                  if_neg (by rw [not_not]; exact (hcl.2.2 (hinv.offsets hu.rpb)).1)] at e
                subst e
                exact whole_access hm (unknown_known hu rfl rfl rfl rfl rfl) hr hw
          · simp only [State.call, State.put] at e
            rw [if_pos (by rw [hk.rpb]; omega)] at e
            subst e
            exact whole_access hm (hk.same rfl rfl rfl rfl rfl) hr hw
        | close =>
          have hw : r = R ∧ rest = [] := by
            cases rest with
            | nil => exact ⟨hw, rfl⟩
            | cons _ _ => exact hw.elim
          obtain ⟨rfl, rfl⟩ := hw
          rcases hst with hu | hk
          · have h1 := hu.more
            have h2 := hu.le
            omega
          · obtain ⟨a1, a2, a3, a4⟩ := hk.some hR0
            simp only [State.call] at e
            rw [if_pos a2] at e
            subst e
            exact ⟨hk.rpb, a1, a3, a4.same rfl⟩
        | otherInit m' =>
          obtain ⟨rfl, hw⟩ : m' = m ∧ Whole m v R r rest := by cases rest <;> exact hw
          simp only [State.call] at e
          rcases hst with hu | hk
          · rw [if_neg (by rw [not_not]; exact hu.rpb), if_neg (by omega),
              if_neg (by rw [not_not]; exact (hcl.2.2 (hinv.offsets hu.rpb)).1)] at e
            subst e
            exact ⟨r, hw, hrR, Or.inr (unknown_known hu rfl rfl rfl rfl rfl)⟩
          · rw [if_pos (by have := hk.rpb; omega)] at e
            subst e
            exact ⟨r, hw, hrR, Or.inr (hk.same rfl rfl rfl rfl rfl)⟩
        | get row => cases rest <;> exact hw.elim
        | addColumn => cases rest <;> exact hw.elim
    | .store (.load k) =>
      simp only [hpc] at e h
      obtain ⟨q, rfl, h2, h3, h4, h5, h6, h7⟩ := h
      injection e with e
      subst e
      unfold State.storeBlock
      have hq : q < noBlock := by
        have : (q + 1) * 1 ≤ (q + 1) * m := Nat.mul_le_mul_left _ hm
        omega
      rw [if_neg (by omega)]
      split
      · exact ⟨q, rfl, h2, h3, h4, h5, h6, h7.same rfl⟩
      · refine ⟨q + 1, rfl, h2, h3, h4, rfl, stored_succ h7 ?_ (by rw [← h5])⟩
        have : rowsIn m R q = m := by
          unfold rowsIn
          have : (q + 1) * m = q * m + m := by ring
          omega
        rw [this]
        exact h6
    | .store .stop =>
      simp only [hpc] at e h hcl
      obtain ⟨h4, h5, h6, h7⟩ := h
      injection e with e
      subst e
      unfold State.storeBlock
      have hq : (R - 1) / m < noBlock := lt_of_le_of_lt (Nat.div_le_self _ _) (by omega)
      rw [if_neg (by omega)]
      split
      · exact ⟨h4, h5, h6, h7.same rfl⟩
      · refine ⟨?_, h4, stored_succ h7 ?_ (by rw [← h5])⟩
        · show s.started = true
          cases hs : s.started with
          | true => rfl
          | false =>
            have := (hcl.2.2 hs).2
            omega
        · have : rowsIn m R ((R - 1) / m) = R - (R - 1) / m * m := by
            unfold rowsIn
            have h1 := Nat.div_add_mod (R - 1) m
            have h2 := Nat.mod_lt (R - 1) hm
            rw [Nat.mul_comm] at h1
            omega
          rw [this]
          exact h6
    | .load k =>
      simp only [hpc] at e h
      obtain ⟨q, rfl, h2, h3, h4, h5, h6⟩ := h
      injection e with e
      subst e
      refine ⟨q * m + 1, h3, by omega, Or.inr ⟨h4, fun hx => by omega, fun _ => ?_⟩⟩
      rw [Nat.add_sub_cancel, Nat.mul_div_cancel _ hm]
      have hcur : q * m / s.rowsPerBlock = q := by rw [h4, Nat.mul_div_cancel _ hm]
      refine ⟨hcur, rfl, ?_, h6.same rfl⟩
      have hfile : s.file q = none := by
        obtain ⟨g, hg, _⟩ := h6
        refine file_none hinv.core ?_ rfl
        rw [hg, ofBlock_range, if_neg (by omega)]
      have hbuf : Filled m v q 0 (State.loadBlock p s q junk).buffer := by
        simp only [State.loadBlock]
        split
        · rw [hfile]
          exact ⟨h4.le, Nat.zero_le _, fun j hj => absurd hj (by omega), .inr h4⟩
        · rw [h5]
          exact filled_empty m v q
      have := filled_set hbuf hm
      have e1 : q * m + 1 - q * m = 0 + 1 := by omega
      rw [e1]
      show Filled m v q (0 + 1) (((State.loadBlock p s (q * m / s.rowsPerBlock) junk).buffer).set
        (q * m % s.rowsPerBlock) (v (q * m)))
      rw [hcur, h4, Nat.mul_mod_left]
      simpa using this
    | .stopLock =>
      simp only [hpc] at e h
      rw [if_neg (by rw [h.1]; simp)] at e
      split at e
      · injection e with e; subst e; exact ⟨h.1, h.2.1, h.2.2.same rfl⟩
      · injection e with e; subst e; exact ⟨h.2.1, h.2.2.same rfl⟩
    | .join =>
      simp only [hpc] at e h
      split at e
      · injection e with e; subst e; exact ⟨h.1, h.2.same rfl⟩
      · cases e
    | .closed | .storeWait _ | .stopWait => simp only [hpc] at e; cases e
    | .getLock _ | .getWait _ | .prepStart | .prepLock | .prepWait | .prepJoin | .failed | .unsupported =>
      simp only [hpc] at h

theorem whole_initial {m R rows0 nBlocks : Nat} {v : Nat → V} {todo : List (Op V)} {k : K}
    (hrows : rows0 = m ∨ rows0 = 0 ∧ m < R) (hw : Whole m v R 0 todo) :
    WholeOK p m v R (initial p k rows0 (fun _ => none) nBlocks todo) := by
  refine ⟨0, hw, Nat.zero_le _, ?_⟩
  rcases hrows with h | ⟨h, h'⟩
  · exact Or.inr ⟨h, fun _ => ⟨rfl, rfl, rfl, rfl⟩, fun hx => absurd hx (by omega)⟩
  · exact Or.inl ⟨h, h', Nat.zero_le _, rfl, fun _ => ⟨rfl, rfl, rfl⟩, fun hx => absurd hx (by omega)⟩

/-- What the column holds after closing, for a program that puts all `R` rows in order.

`m` is the number of rows of the first time block; either the rows per block are already fixed to `m`, or
there is a row `m` and it is the first one that differs from row 0. Under every schedule: the client never
fails; when no step is possible any more it has closed the column; and then the file holds, for each block,
rows with everything that was put. -/
theorem whole_column (hn : 0 < p.threads) (hc : 1 ≤ p.maxCache) {m R rows0 nBlocks : Nat} {v : Nat → V}
    {todo : List (Op V)} {k : K} {s : State V K p.threads} (hm : 0 < m) (hR0 : 0 < R) (hR : R ≤ noBlock)
    (hsame : ∀ r, 0 < r → r < m → p.differs (p.key r) (p.key 0) = false)
    (hdiff : m < R → p.differs (p.key m) (p.key 0) = true)
    (hrows : rows0 = m ∨ rows0 = 0 ∧ m < R) (hw : Whole m v R 0 todo)
    (h : Reachable p (initial p k rows0 (fun _ => none) nBlocks todo) s) :
    s.client ≠ .failed ∧ s.client ≠ .unsupported ∧
    (∀ junk, step p s (.client junk) = none → (∀ i, step p s (.thread i) = none) → s.client = .closed) ∧
    (s.client = .closed → ∀ b,
      (b * m < R → ∃ rows, s.file b = some rows ∧ ofBlock s.writes b = [rows] ∧ Filled m v b (rowsIn m R b) rows) ∧
      (R ≤ b * m → s.file b = none)) := by
  have hfile : fileAt rows0 (fun _ => none : Nat → Option (Rows V)) = fun _ => none := by
    unfold fileAt
    split <;> rfl
  have h' := h
  obtain ⟨ls, e⟩ := h
  obtain ⟨hinv, hok⟩ := run_induct (P := fun s => Inv p (fun _ => none) s ∧ WholeOK p m v R s)
    (fun s l s' hi he => ⟨step_inv hi.1 hn he, whole_step hm hR0 hR hsame hdiff hi.1 hi.2 he⟩)
    ⟨by have := initial_inv (p := p) hn k rows0 (fun _ => none) nBlocks todo
        rwa [show (if rows0 = 0 then fun _ => none else fun _ => none) = (fun _ => none : Nat → Option (Rows V)) from
          by split <;> rfl] at this, whole_initial hrows hw⟩ e
  refine ⟨?_, ?_, ?_, ?_⟩
  · intro hx
    unfold WholeOK at hok
    rw [hx] at hok
    exact hok
  · intro hx
    unfold WholeOK at hok
    rw [hx] at hok
    exact hok
  · intro junk h1 h2
    have hna : NoAdd s := by
      refine run_induct (P := NoAdd) (fun s l s' hs he => noAdd_step hs he) (initial_noAdd ?_) e
      clear e h' hok hinv hrows
      generalize 0 = r at hw
      induction todo generalizing r with
      | nil => intro op hop; cases hop
      | cons o rest ih =>
        intro op hop
        rcases List.mem_cons.mp hop with rfl | hop2
        · cases op <;> first | rfl | (cases rest <;> exact hw.elim)
        · cases o with
          | put _ _ =>
            have : Whole m v R (r + 1) rest := by cases rest <;> exact hw.2.2.2
            exact ih (r + 1) this op hop2
          | otherInit _ =>
            have : Whole m v R r rest := by cases rest <;> exact hw.2
            exact ih r this op hop2
          | close => cases rest with
            | nil => cases hop2
            | cons _ _ => exact hw.elim
          | get _ => cases rest <;> exact hw.elim
          | addColumn => cases rest <;> exact hw.elim
    have hf := (no_deadlock_of_inv hn hc junk hinv hna h1 h2).1
    unfold WholeOK at hok
    rcases hf with hf | hf | hf | ⟨hf, ht⟩
    · exact hf
    · rw [hf] at hok; exact hok.elim
    · rw [hf] at hok; exact hok.elim
    · rw [hf] at hok
      obtain ⟨r, hw, _⟩ := hok
      rw [ht] at hw
      exact hw.elim
  · intro hcl b
    obtain ⟨_, _, _, hd⟩ := closed_drained hn h' hcl
    have hd := hd b
    rw [hfile, Option.or_none] at hd
    have hcache : s.cache = [] := by
      have := hinv.client
      unfold ClientOK at this
      rw [hcl] at this
      exact this.2.2
    have hwr := ((drained hn h' hcache).2 b).1
    unfold WholeOK at hok
    rw [hcl] at hok
    obtain ⟨_, g, hg, hfill⟩ := hok
    rw [hg, ofBlock_range] at hd hwr
    have hq : b * m < R ↔ b < (R - 1) / m + 1 := by
      rw [Nat.lt_succ_iff, Nat.le_div_iff_mul_le hm]
      omega
    constructor
    · intro hb
      have hb' := hq.mp hb
      rw [if_pos hb'] at hd hwr
      exact ⟨g b, hd, hwr, hfill b hb'⟩
    · intro hb
      rw [if_neg (fun hx => by have := hq.mpr hx; omega)] at hd
      exact hd

/-- Four rows in two blocks of two, with the rows per block fixed by another column after two rows. -/
example : Whole 2 (fun r => 20 + r) 4 0
    ([.put 0 20, .put 1 21, .otherInit 2, .put 2 22, .put 3 23, .close] : List (Op Nat)) := by
  simp [Whole]

example : ∃ s, Reachable demo (initial demo 0 0 (fun _ => none) 0
      [.put 0 20, .put 1 21, .otherInit 2, .put 2 22, .put 3 23, .close]) s ∧
    ((match s.client with | .closed => true | _ => false), s.writes.map (·.1)) = (true, [0, 1]) :=
  reachable_of_run (ls := [c, c, c, c, c, c, c, c, c, t, t, t, t, t, t, t, c, t, c]) (by decide +kernel)

end Dysco.Col
