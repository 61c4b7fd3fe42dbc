import Verif.TimeBlockLemmas

/-!
# Property C29: a block buffer behaves as a map from row to data
-/

namespace Dysco.TimeBlock

variable {α : Type}

/-- Operations on a block buffer. -/
inductive Op (α : Type) where
  | set (row antenna1 antenna2 : Nat) (data : Buf α)
  | reset

/-- Executing an operation. -/
def Op.run (zero : α) (nPol nCh : Nat) (b : Block α) : Op α → Option (Block α)
  | .set row a1 a2 data => setData zero nPol nCh b row a1 a2 data
  | .reset => some (resetData b)

/-- Executing a list of operations. -/
def runAll (zero : α) (nPol nCh : Nat) : Block α → List (Op α) → Option (Block α)
  | b, [] => some b
  | b, op :: ops => (op.run zero nPol nCh b).bind fun b => runAll zero nPol nCh b ops

/-- The specification: a map from row number to antennas and data. -/
abbrev RowMap (α : Type) := Nat → Option (Nat × Nat × (Nat → α))

/-- One operation on the rows of a buffer, as a function. Not in the code. -/
def Op.spec (m : RowMap α) : Op α → RowMap α
  | .set row a1 a2 data => fun r => if r = row then some (a1, a2, data.get) else m r
  | .reset => fun _ => none

/-- A sequence of operations on the rows of a buffer, as a function. Not in the code. -/
def specAll : RowMap α → List (Op α) → RowMap α
  | m, [] => m
  | m, op :: ops => specAll (op.spec m) ops

/-- The data given to `SetData` has enough elements. -/
def Op.Valid (n : Nat) : Op α → Prop
  | .set _ _ _ data => n ≤ data.len
  | .reset => True

/-- The block holds the map: its length is one more than the largest row, set rows have the antennas and
data of the map and other rows are empty. -/
structure Refines (n : Nat) (m : RowMap α) (b : Block α) : Prop where
  lt : ∀ r x, m r = some x → r < b.len
  tight : b.len = 0 ∨ ∃ x, m (b.len - 1) = some x
  row : ∀ r a1 a2 d, m r = some (a1, a2, d) → (b.get r).antenna1 = a1 ∧ (b.get r).antenna2 = a2 ∧
    (b.get r).vis.len = n ∧ ∀ i, i < n → (b.get r).vis.get i = d i
  gap : ∀ r, r < b.len → m r = none → (b.get r).vis.len = 0

/-- The copy loops of `SetData` and `GetData`. -/
theorem copy_loop (n : Nat) (src dst : Buf α) (h1 : n ≤ src.len) (h2 : n ≤ dst.len) :
    ∃ d, forRange n (fun i (d : Buf α) => (src.rd i).bind fun x => d.wr i x) dst = some d ∧
      d.len = dst.len ∧ (∀ i, i < n → d.get i = src.get i) ∧ ∀ i, n ≤ i → d.get i = dst.get i := by
  obtain ⟨d, e, h⟩ := forRange_inv n (fun i (d : Buf α) => (src.rd i).bind fun x => d.wr i x) dst
    (fun k d => d.len = dst.len ∧ (∀ i, i < k → d.get i = src.get i) ∧ ∀ i, k ≤ i → d.get i = dst.get i)
    ⟨rfl, fun i hi => by omega, fun i _ => rfl⟩ (by
      rintro k d hk ⟨a, b, c⟩
      refine ⟨⟨d.len, fun j => if j = k then src.get k else d.get j⟩, ?_, a, ?_, ?_⟩
      · rw [Buf.rd_some (show k < src.len by omega), Option.bind_some,
          Buf.wr_some (show k < d.len by omega)]
      · intro i hi
        by_cases h : i = k
        · simp [h]
        · simp only [h, if_false]
          exact b i (by omega)
      · intro i hi
        have h : i ≠ k := by omega
        simp only [h, if_false]
        exact c i (by omega))
  exact ⟨d, e, h⟩

theorem setData_refines (zero : α) (nPol nCh : Nat) {m : RowMap α} {b : Block α}
    (h : Refines (nPol * nCh) m b) (row a1 a2 : Nat) (data : Buf α) (hd : nPol * nCh ≤ data.len) :
    ∃ b', setData zero nPol nCh b row a1 a2 data = some b' ∧
      Refines (nPol * nCh) ((Op.set row a1 a2 data).spec m) b' := by
  -- the block after the resize
  have hres : ∃ b1 : Block α, (if b.len ≤ row then b.resize (row + 1) ⟨0, 0, ⟨0, fun _ => zero⟩⟩ else b) =
      b1 ∧ b1.len = max b.len (row + 1) ∧ (∀ r, r < b.len → b1.get r = b.get r) ∧
      ∀ r, b.len ≤ r → r < b1.len → (b1.get r).vis.len = 0 := by
    by_cases hl : b.len ≤ row
    · refine ⟨_, rfl, ?_, ?_, ?_⟩
      · simp only [hl, if_true, Buf.resize]; omega
      · intro r hr
        simp only [hl, if_true, Buf.resize, hr]
      · intro r hr _
        have : ¬ r < b.len := by omega
        simp only [hl, if_true, Buf.resize, this, if_false]
    · refine ⟨_, rfl, ?_, ?_, ?_⟩
      · simp only [hl, if_false]; omega
      · intro r hr
        simp only [hl, if_false]
      · intro r hr h2
        simp only [hl, if_false] at h2
        omega
  obtain ⟨b1, e1, l1, s1, s2⟩ := hres
  obtain ⟨vis, e2, v1, v2, _⟩ := copy_loop (nPol * nCh) data ((b1.get row).vis.resize (nPol * nCh) zero)
    hd (Nat.le_refl _)
  have hrow : row < b1.len := by omega
  refine ⟨⟨b1.len, fun j => if j = row then ⟨a1, a2, vis⟩ else b1.get j⟩, ?_, ?_⟩
  · unfold setData
    simp only
    rw [e1, Buf.rd_some hrow, Option.bind_some, e2, Option.bind_some, Buf.wr_some hrow]
  · constructor
    · intro r x hx
      simp only [Op.spec] at hx
      split at hx
      · simp only; omega
      · have := h.lt r x hx
        simp only; omega
    · right
      simp only [Op.spec]
      by_cases hr : b1.len - 1 = row
      · simp [hr]
      · simp only [hr, if_false]
        have hb : b1.len = b.len := by omega
        rcases h.tight with h0 | ⟨x, hx⟩
        · omega
        · rw [hb]; exact ⟨x, hx⟩
    · intro r c1 c2 d hx
      simp only [Op.spec] at hx
      by_cases hr : r = row
      · simp only [hr, if_true, Option.some.injEq, Prod.mk.injEq] at hx ⊢
        obtain ⟨rfl, rfl, rfl⟩ := hx
        exact ⟨rfl, rfl, v1, v2⟩
      · simp only [hr, if_false] at hx ⊢
        rw [s1 r (h.lt r _ hx)]
        exact h.row r c1 c2 d hx
    · intro r hr hx
      simp only [Op.spec] at hx
      by_cases hr' : r = row
      · simp [hr'] at hx
      · simp only [hr', if_false] at hx hr ⊢
        by_cases hb : r < b.len
        · rw [s1 r hb]; exact h.gap r hb hx
        · exact s2 r (by omega) hr

theorem runAll_refines (zero : α) (nPol nCh : Nat) (ops : List (Op α)) :
    ∀ {m : RowMap α} {b : Block α}, Refines (nPol * nCh) m b →
      (∀ op ∈ ops, op.Valid (nPol * nCh)) →
      ∃ b', runAll zero nPol nCh b ops = some b' ∧ Refines (nPol * nCh) (specAll m ops) b' := by
  induction ops with
  | nil => exact fun h _ => ⟨_, rfl, h⟩
  | cons op ops ih =>
    intro m b h hv
    have h1 : ∃ b', op.run zero nPol nCh b = some b' ∧ Refines (nPol * nCh) (op.spec m) b' := by
      cases op with
      | set row a1 a2 data =>
        exact setData_refines zero nPol nCh h row a1 a2 data
          (hv (.set row a1 a2 data) (by simp))
      | reset =>
        refine ⟨_, rfl, ⟨fun r x hx => by simp [Op.spec] at hx, Or.inl rfl,
          fun r _ _ _ hx => by simp [Op.spec] at hx, fun r hr => by simp [resetData] at hr⟩⟩
    obtain ⟨b1, e1, r1⟩ := h1
    obtain ⟨b2, e2, r2⟩ := ih r1 (fun op hop => hv op (by simp [hop]))
    exact ⟨b2, by rw [runAll, e1, Option.bind_some, e2], r2⟩

/-- **C29**: after any sequence of `SetData` and `ResetData` calls on a new buffer, with `m` the map that
the same calls make: every row of the map is returned by `GetData` with the data of the last `SetData`
(elements of the destination past the row are untouched) and has the antennas of that call; the number of
rows is one more than the highest row set since the last reset, and zero if there are none. -/
theorem block_buffer_map (zero : α) (nPol nCh : Nat) (g : Nat → DataRow α) (ops : List (Op α))
    (hv : ∀ op ∈ ops, op.Valid (nPol * nCh)) :
    ∃ b, runAll zero nPol nCh ⟨0, g⟩ ops = some b ∧
      (∀ r a1 a2 d, specAll (fun _ => none) ops r = some (a1, a2, d) →
        r < nRows b ∧ (b.get r).antenna1 = a1 ∧ (b.get r).antenna2 = a2 ∧
        ∀ dest : Buf α, nPol * nCh ≤ dest.len → ∃ dest', getData b r dest = some dest' ∧
          (∀ i, i < nPol * nCh → dest'.get i = d i) ∧
          ∀ i, nPol * nCh ≤ i → dest'.get i = dest.get i) ∧
      (∀ r, r < nRows b → specAll (fun _ => none) ops r = none → ∀ dest, getData b r dest = some dest) ∧
      ((∀ r, specAll (fun _ => none) ops r = none) → nRows b = 0) ∧
      (∀ r x, specAll (fun _ => none) ops r = some x →
        (∀ r' x', specAll (fun _ => none) ops r' = some x' → r' ≤ r) → nRows b = r + 1) := by
  obtain ⟨b, e, h⟩ := runAll_refines zero nPol nCh ops (m := fun _ => none) (b := ⟨0, g⟩)
    ⟨fun _ _ hx => by simp at hx, Or.inl rfl, fun _ _ _ _ hx => by simp at hx,
      fun _ hr => by simp at hr⟩ hv
  refine ⟨b, e, ?_, ?_, ?_, ?_⟩
  · intro r a1 a2 d hx
    obtain ⟨q1, q2, q3, q4⟩ := h.row r a1 a2 d hx
    have hr := h.lt r _ hx
    refine ⟨hr, q1, q2, ?_⟩
    intro dest hd
    obtain ⟨d', e', _, p2, p3⟩ := copy_loop (nPol * nCh) (b.get r).vis dest (by omega) hd
    refine ⟨d', ?_, ?_, p3⟩
    · unfold getData
      rw [Buf.rd_some hr, Option.bind_some, q3, e']
    · intro i hi
      rw [p2 i hi, q4 i hi]
  · intro r hr hx dest
    unfold getData
    rw [Buf.rd_some hr, Option.bind_some, h.gap r hr hx]
    rfl
  · intro hall
    rcases h.tight with h0 | ⟨x, hx⟩
    · exact h0
    · rw [hall] at hx; simp at hx
  · intro r x hx hmax
    have := h.lt r x hx
    rcases h.tight with h0 | ⟨x', hx'⟩
    · omega
    · have := hmax _ _ hx'
      simp only [nRows]
      omega

/-- `MaxAntennaIndex` is the largest antenna of the block's rows (zero for an empty block). -/
theorem maxAntennaIndex_spec (b : Block α) : ∃ m, maxAntennaIndex b = some m ∧
    (∀ r, r < b.len → (b.get r).antenna1 ≤ m ∧ (b.get r).antenna2 ≤ m) ∧
    (m = 0 ∨ ∃ r, r < b.len ∧ (m = (b.get r).antenna1 ∨ m = (b.get r).antenna2)) := by
  obtain ⟨m, e, h1, h2⟩ := forRange_inv b.len
    (fun i m => (b.rd i).map fun row => max m (max row.antenna1 row.antenna2)) 0
    (fun k m => (∀ r, r < k → (b.get r).antenna1 ≤ m ∧ (b.get r).antenna2 ≤ m) ∧
      (m = 0 ∨ ∃ r, r < k ∧ (m = (b.get r).antenna1 ∨ m = (b.get r).antenna2)))
    ⟨fun r hr => by omega, Or.inl rfl⟩ (by
      rintro k m hk ⟨a, c⟩
      refine ⟨max m (max (b.get k).antenna1 (b.get k).antenna2), by rw [Buf.rd_some hk]; rfl, ?_, ?_⟩
      · intro r hr
        rcases Nat.lt_or_eq_of_le (Nat.le_of_lt_succ hr) with h | h
        · have := a r h
          omega
        · rw [h]; omega
      · by_cases hm : max (b.get k).antenna1 (b.get k).antenna2 ≤ m
        · rw [Nat.max_eq_left hm]
          rcases c with h | ⟨r, hr, h⟩
          · exact Or.inl h
          · exact Or.inr ⟨r, by omega, h⟩
        · right
          refine ⟨k, by omega, ?_⟩
          omega)
  exact ⟨m, e, h1, h2⟩

/-- Rows 2, 0, 2 are set: three rows, row 2 has the second data, row 1 is empty. -/
example : specAll (fun _ => none) [Op.set 2 0 1 ⟨1, fun _ => 5⟩, .set 0 3 4 ⟨1, fun _ => 6⟩,
    .set 2 7 8 ⟨1, fun _ => (9 : Nat)⟩] 2 = some (7, 8, fun _ => 9) ∧
    ∀ op ∈ [Op.set 2 0 1 ⟨1, fun _ => 5⟩, .set 0 3 4 ⟨1, fun _ => 6⟩,
      .set 2 7 8 ⟨1, fun _ => (9 : Nat)⟩], op.Valid (1 * 1) := by
  constructor
  · rfl
  · intro op hop
    simp at hop
    rcases hop with rfl | rfl | rfl <;> simp [Op.Valid]

/-- The theorem on these calls: three rows in the buffer, row 2 has the data of the last call. -/
example : ∃ b, runAll (0 : Nat) 1 1 ⟨0, fun _ => ⟨7, 7, ⟨0, fun _ => 0⟩⟩⟩ [Op.set 2 0 1 ⟨1, fun _ => 5⟩,
      .set 0 3 4 ⟨1, fun _ => 6⟩, .set 2 7 8 ⟨1, fun _ => 9⟩] = some b ∧
    2 < nRows b ∧ (b.get 2).antenna1 = 7 ∧ (b.get 2).antenna2 = 8 := by
  obtain ⟨b, h, h1, -⟩ := block_buffer_map (0 : Nat) 1 1 (fun _ => ⟨7, 7, ⟨0, fun _ => 0⟩⟩)
    [Op.set 2 0 1 ⟨1, fun _ => 5⟩, .set 0 3 4 ⟨1, fun _ => 6⟩, .set 2 7 8 ⟨1, fun _ => 9⟩]
    (fun op hop => by simp at hop; rcases hop with rfl | rfl | rfl <;> simp [Op.Valid])
  obtain ⟨h2, h3, h4, -⟩ := h1 2 7 8 (fun _ => 9) rfl
  exact ⟨b, h, h2, h3, h4⟩

/-- The largest antenna of a block of two rows. -/
example : ∃ m, maxAntennaIndex (⟨2, fun r => ⟨r, 5 * r + 1, ⟨1, fun _ => 0⟩⟩⟩ : Block Nat) = some m ∧ m = 6 := by
  obtain ⟨m, h, h1, h2⟩ := maxAntennaIndex_spec (⟨2, fun r => ⟨r, 5 * r + 1, ⟨1, fun _ => 0⟩⟩⟩ : Block Nat)
  refine ⟨m, h, ?_⟩
  have := (h1 1 (by decide)).2
  rcases h2 with h2 | ⟨r, hr, h2⟩
  · simp_all
  · have hr : r < 2 := hr
    simp only at this h2
    omega

end Dysco.TimeBlock
