import Verif.EndProps

/-!
# C132: damage in a stored block stays local

Whatever the bytes of a block are, decoding it has a defined result (`any_block_data`, `any_block_weights`): all symbols
of the bit stream are below `2^bits` and any four bytes are a float. A sample that is read depends only on the bytes that
hold its own bits and on the bytes of the factors that belong to it (`data_damage`, `weight_damage`), so that a changed
byte can change other samples only as far as it is shared with them.
-/

namespace Dysco.Layout
open BytePacker TimeBlock Stochastic

variable {nR nPol nCh nAnt bits : Nat} {A : Nat → Nat × Nat}

/-! ## Any bytes -/

/-- Symbol `j` of a block `d` whose symbols begin at byte `start`. Not in the code: bytepacker.h describes the stream. -/
def symbolAt (bits start : Nat) (d : Mem 8) (j : Nat) : Nat :=
  ((List.range bits).map fun t => if (d.get (start + (j * bits + t) / 8)).getLsbD ((j * bits + t) % 8) then 2 ^ t else 0).sum

theorem sum_bits (f : Nat → Bool) (n : Nat) :
    ((List.range n).map fun t => if f t then 2 ^ t else 0).sum < 2 ^ n ∧
    ∀ k, ((List.range n).map fun t => if f t then 2 ^ t else 0).sum.testBit k = (decide (k < n) && f k) := by
  induction n with
  | zero => simp
  | succ n ih =>
    obtain ⟨h1, h2⟩ := ih
    rw [List.range_succ, List.map_append, List.sum_append]
    simp only [List.map_cons, List.map_nil, List.sum_cons, List.sum_nil, Nat.add_zero]
    constructor
    · rw [Nat.pow_succ]
      split <;> omega
    · intro k
      by_cases hf : f n
      · rw [if_pos hf, Nat.add_comm]
        by_cases hk : k = n
        · subst hk
          rw [Nat.testBit_two_pow_add_eq, h2]
          simp [hf]
        · rcases Nat.lt_or_gt_of_ne hk with h | h
          · rw [Nat.testBit_two_pow_add_gt h, h2]
            simp [h, Nat.lt_succ_of_lt h]
          · rw [Nat.testBit_lt_two_pow]
            · simp; omega
            · have : 2 ^ (n + 1) ≤ 2 ^ k := Nat.pow_le_pow_right (by decide) h
              rw [Nat.pow_succ] at this
              omega
      · rw [if_neg hf, Nat.add_zero, h2]
        by_cases hk : k = n
        · subst hk; simp [hf]
        · have : (k < n) ↔ (k < n + 1) := by omega
          simp [this]

theorem symbolAt_lt (start : Nat) (d : Mem 8) (j : Nat) : symbolAt bits start d j < 2 ^ bits :=
  (sum_bits _ bits).1

theorem unpack_any {nMeta nSym : Nat} (hb : Supported bits) {d : Mem 8} (hl : d.len = blockSize nMeta nSym bits)
    (out : Buf Nat) (ho : out.len = nSym) :
    ∃ s, unpack bits (symMem out) (tail (4 * nMeta) d) nSym = .ok s ∧ s.len = nSym ∧
      ∀ j, j < nSym → (s.get j).toNat = symbolAt bits (4 * nMeta) d j := by
  obtain ⟨s, e, h1, h2, -⟩ := unpack_stream bits nSym (symMem out) (tail (4 * nMeta) d) hb
    (by simp only [symMem]; omega) (by simp only [tail]; unfold blockSize at hl; omega)
  refine ⟨s, e, by rw [h1]; exact ho, fun j hj => ?_⟩
  apply Nat.eq_of_testBit_eq
  intro t
  unfold symbolAt
  rw [(sum_bits _ bits).2 t]
  by_cases ht : t < 32
  · have := h2 j hj t ht
    rw [← BitVec.testBit_toNat] at this
    rw [this]
    by_cases hb' : t < bits
    · simp [hb', byteBit, tail]
    · simp [hb']
  · have h16 : ¬ t < bits := by unfold Supported at hb; omega
    rw [Nat.testBit_lt_two_pow (lt_of_lt_of_le (s.get j).isLt (Nat.pow_le_pow_right (by decide) (by omega)))]
    simp [h16]

theorem any_block {α : Type} {dec : Buf Fl → Buf Nat → Nat → Block α → Option (Block α)}
    {nMeta nSym nRow n : Nat} {V : Buf Fl → Buf Nat → Nat → Nat → α} (hb : Supported bits)
    (h : Reads dec nMeta nSym (2 ^ bits) nRow n V) {d : Mem 8} (hl : d.len = blockSize nMeta nSym bits)
    (dflt : DataRow α) (out : Buf Nat) (ho : out.len = nSym) (rows : Block α) :
    ∃ rows', readBlock dec bits nMeta nSym nRow dflt d out rows = .ok rows' ∧ rows'.len = nRow ∧
      ∀ r, r < nRow → (rows'.get r).vis.len = n ∧
        ∀ i, i < n → (rows'.get r).vis.get i =
          V (metaView nMeta d) ⟨nSym, fun j => symbolAt bits (4 * nMeta) d j⟩ r i :=
  readBlock_spec h (metaB' := metaView nMeta d) (sym' := ⟨nSym, fun j => symbolAt bits (4 * nMeta) d j⟩) rfl rfl
    (fun j _ => symbolAt_lt _ d j) hl (fun _ _ => rfl) (fun out ho => unpack_any hb hl out ho) dflt out ho rows

/-- Every block can be decoded, whatever its bytes are; the values are those of the floats and symbols that its bytes
describe. -/
theorem any_block_data (norm : Norm) {e : Encoder} {b l : Nat → ℚ} {L : ℚ} (hT : Table e b l L)
    (hb : Supported bits) (hq : e.quantCount = 2 ^ bits) (hA : norm = .af → AF.AntennasBelow nR nAnt A) {d : Mem 8}
    (hl : d.len = blockSize (dataMetaCount norm nR nPol nCh nAnt) (symbolCount nR nPol nCh) bits)
    (dflt : DataRow Cx) (out : Buf Nat) (ho : out.len = symbolCount nR nPol nCh) (rows : Block Cx) :
    ∃ rows', readBlock (decData norm e nPol nCh nAnt A) bits (dataMetaCount norm nR nPol nCh nAnt)
        (symbolCount nR nPol nCh) nR dflt d out rows = .ok rows' ∧ rows'.len = nR ∧
      ∀ r, r < nR → (rows'.get r).vis.len = nPol * nCh ∧
        ∀ i, i < nPol * nCh → (rows'.get r).vis.get i =
          valueOf norm e nPol nCh nAnt A (metaView (dataMetaCount norm nR nPol nCh nAnt) d)
            ⟨symbolCount nR nPol nCh, fun j => symbolAt bits (4 * dataMetaCount norm nR nPol nCh nAnt) d j⟩ r i := by
  have hr := dataReads (nR := nR) (nPol := nPol) (nCh := nCh) norm hT hA
  rw [hq] at hr
  exact any_block hb hr hl dflt out ho rows

theorem any_block_weights (hb : Supported bits) (hc : 0 < nCh) {d : Mem 8}
    (hl : d.len = blockSize Weight.metaDataFloatCount (Weight.symbolCount nR nCh) bits)
    (dflt : DataRow Fl) (out : Buf Nat) (ho : out.len = Weight.symbolCount nR nCh) (rows : Block Fl) :
    ∃ rows', readBlock (decWeight nPol nCh bits) bits Weight.metaDataFloatCount
        (Weight.symbolCount nR nCh) nR dflt d out rows = .ok rows' ∧ rows'.len = nR ∧
      ∀ r, r < nR → (rows'.get r).vis.len = nCh * nPol ∧
        ∀ i, i < nCh * nPol → (rows'.get r).vis.get i =
          Weight.decodeSample Fl.r32 Fl.r64 (2 ^ bits) ((metaView 1 d).get 0) (symbolAt bits 4 d (r * nCh + i / nPol)) :=
  any_block hb (weightReads hc) hl dflt out ho rows

/-! ## The bytes of a sample -/

/-- The numbers of the floats at the start of the block that belong to sample `i` of row `r`: the factor of the row; of
the channel and polarisation and of the row and polarisation; of the channel and polarisation and of both antennas.
rowtimeblockencoder.cc:29, rftimeblockencoder.cc:120-122,138-139, aftimeblockencoder.cc:405-409,418-431. -/
def floatsOf (norm : Norm) (nPol nCh nAnt : Nat) (A : Nat → Nat × Nat) (r i : Nat) : List Nat :=
  match norm with
  | .row => [r]
  | .rf => [i, nPol * nCh + (r * nPol + i % nPol)]
  | .af => [i, nPol * nCh + (nAnt * (i % nPol) + (A r).1), nPol * nCh + (nAnt * (i % nPol) + (A r).2)]

/-- Byte `k` is one of float `m`. threadeddyscocolumn.cc:82-87: the floats come first. -/
def OfFloat (m k : Nat) : Prop := 4 * m ≤ k ∧ k < 4 * m + 4

/-- Byte `k` holds one of the bits `first`, …, `first + count - 1` of the symbols, which begin at byte `start`.
bytepacker.h. -/
def OfBits (start first count k : Nat) : Prop := ∃ t, t < count ∧ k = start + (first + t) / 8

theorem metaView_congr {nMeta m : Nat} {d d' : Mem 8} (h : ∀ k, OfFloat m k → d.get k = d'.get k) :
    (metaView nMeta d).get m = (metaView nMeta d').get m := by
  unfold metaView le32
  simp only
  rw [h _ ⟨by omega, by omega⟩, h (4 * m + 1) ⟨by omega, by omega⟩, h (4 * m + 2) ⟨by omega, by omega⟩,
    h (4 * m + 3) ⟨by omega, by omega⟩]

theorem symbolAt_congr {start j : Nat} {d d' : Mem 8} (h : ∀ k, OfBits start (j * bits) bits k → d.get k = d'.get k) :
    symbolAt bits start d j = symbolAt bits start d' j := by
  unfold symbolAt
  congr 1
  apply List.map_congr_left
  intro t ht
  rw [h _ ⟨t, List.mem_range.1 ht, rfl⟩]

theorem factorOf_congr {norm : Norm} {m m' : Buf Fl} {r i : Nat}
    (h : ∀ k ∈ floatsOf norm nPol nCh nAnt A r i, m.get k = m'.get k) :
    factorOf norm nPol nCh nAnt A m r i = factorOf norm nPol nCh nAnt A m' r i := by
  cases norm with
  | row => exact h r (by simp [floatsOf])
  | rf =>
    unfold factorOf
    simp only
    rw [h i (by simp [floatsOf]), h (nPol * nCh + (r * nPol + i % nPol)) (by simp [floatsOf])]
  | af =>
    unfold factorOf
    simp only
    rw [h i (by simp [floatsOf]), h (nPol * nCh + (nAnt * (i % nPol) + (A r).1)) (by simp [floatsOf]),
      h (nPol * nCh + (nAnt * (i % nPol) + (A r).2)) (by simp [floatsOf])]

/-- **C132** Two blocks of any bytes: a sample is read with the same value from both, if they have the same bytes where
the factors of the sample and the `2 * bits` bits of the sample are. Other bytes, earlier contents of the buffers and the
other rows do not matter. -/
theorem data_damage (norm : Norm) {e : Encoder} {b l : Nat → ℚ} {L : ℚ} (hT : Table e b l L)
    (hb : Supported bits) (hq : e.quantCount = 2 ^ bits) (hA : norm = .af → AF.AntennasBelow nR nAnt A) {d d' : Mem 8}
    (hl : d.len = blockSize (dataMetaCount norm nR nPol nCh nAnt) (symbolCount nR nPol nCh) bits) (hl' : d'.len = d.len)
    {dflt dflt' : DataRow Cx} {out out' : Buf Nat} (ho : out.len = symbolCount nR nPol nCh)
    (ho' : out'.len = symbolCount nR nPol nCh) (rows rows' : Block Cx) :
    ∃ x x', readBlock (decData norm e nPol nCh nAnt A) bits (dataMetaCount norm nR nPol nCh nAnt)
        (symbolCount nR nPol nCh) nR dflt d out rows = .ok x ∧
      readBlock (decData norm e nPol nCh nAnt A) bits (dataMetaCount norm nR nPol nCh nAnt)
        (symbolCount nR nPol nCh) nR dflt' d' out' rows' = .ok x' ∧
      ∀ r i, r < nR → i < nPol * nCh →
        (∀ m ∈ floatsOf norm nPol nCh nAnt A r i, ∀ k, OfFloat m k → d.get k = d'.get k) →
        (∀ k, OfBits (4 * dataMetaCount norm nR nPol nCh nAnt) ((r * (nPol * nCh) + i) * (2 * bits)) (2 * bits) k →
          d.get k = d'.get k) →
        (x.get r).vis.get i = (x'.get r).vis.get i := by
  obtain ⟨x, e1, -, g1⟩ := any_block_data norm hT hb hq hA hl dflt out ho rows
  obtain ⟨x', e2, -, g2⟩ := any_block_data norm hT hb hq hA (hl'.trans hl) dflt' out' ho' rows'
  refine ⟨x, x', e1, e2, fun r i hr hi hf hs => ?_⟩
  rw [(g1 r hr).2 i hi, (g2 r hr).2 i hi]
  unfold valueOf
  rw [factorOf_congr (m' := metaView (dataMetaCount norm nR nPol nCh nAnt) d') fun m hm => metaView_congr (hf m hm)]
  simp only
  rw [symbolAt_congr (d' := d') (j := (r * (nPol * nCh) + i) * 2), symbolAt_congr (d' := d') (j := (r * (nPol * nCh) + i) * 2 + 1)]
  · rintro k ⟨t, ht, rfl⟩
    refine hs _ ⟨bits + t, by omega, ?_⟩
    congr 2
    ring
  · rintro k ⟨t, ht, rfl⟩
    refine hs _ ⟨t, by omega, ?_⟩
    congr 2
    ring

/-- **C132** for weights: a weight depends only on the stored maximum and the `bits` bits of its row and channel. -/
theorem weight_damage (hb : Supported bits) (hc : 0 < nCh) {d d' : Mem 8}
    (hl : d.len = blockSize Weight.metaDataFloatCount (Weight.symbolCount nR nCh) bits) (hl' : d'.len = d.len)
    {dflt dflt' : DataRow Fl} {out out' : Buf Nat} (ho : out.len = Weight.symbolCount nR nCh)
    (ho' : out'.len = Weight.symbolCount nR nCh) (rows rows' : Block Fl) :
    ∃ x x', readBlock (decWeight nPol nCh bits) bits Weight.metaDataFloatCount
        (Weight.symbolCount nR nCh) nR dflt d out rows = .ok x ∧
      readBlock (decWeight nPol nCh bits) bits Weight.metaDataFloatCount
        (Weight.symbolCount nR nCh) nR dflt' d' out' rows' = .ok x' ∧
      ∀ r i, r < nR → i < nCh * nPol → (∀ k, k < 4 → d.get k = d'.get k) →
        (∀ k, OfBits 4 ((r * nCh + i / nPol) * bits) bits k → d.get k = d'.get k) →
        (x.get r).vis.get i = (x'.get r).vis.get i := by
  obtain ⟨x, e1, -, g1⟩ := any_block_weights (nPol := nPol) hb hc hl dflt out ho rows
  obtain ⟨x', e2, -, g2⟩ := any_block_weights (nPol := nPol) hb hc (hl'.trans hl) dflt' out' ho' rows'
  refine ⟨x, x', e1, e2, fun r i hr hi hf hs => ?_⟩
  rw [(g1 r hr).2 i hi, (g2 r hr).2 i hi, symbolAt_congr hs,
    metaView_congr (d := d) (d' := d') fun k hk => hf k (by unfold OfFloat at hk; omega)]

/-! ## One damaged byte -/

/-- `d'` is `d` with another value in byte `k`. -/
def Damaged (d d' : Mem 8) (k : Nat) : Prop := d'.len = d.len ∧ ∀ j, j ≠ k → d.get j = d'.get j

theorem floatsOf_lt {norm : Norm} (hA : norm = .af → AF.AntennasBelow nR nAnt A) {r i : Nat} (hr : r < nR)
    (hi : i < nPol * nCh) {m : Nat} (hm : m ∈ floatsOf norm nPol nCh nAnt A r i) :
    m < dataMetaCount norm nR nPol nCh nAnt := by
  have hp : i % nPol < nPol := Nat.mod_lt _ (Nat.pos_of_ne_zero (by rintro rfl; simp at hi))
  cases norm with
  | row =>
    obtain rfl : m = r := by simpa [floatsOf] using hm
    exact hr
  | rf =>
    have hc : dataMetaCount .rf nR nPol nCh nAnt = nPol * (nCh + nR) := rfl
    have hx : r * nPol + i % nPol < nR * nPol := flat_lt hr hp
    rw [hc, Nat.mul_add, Nat.mul_comm nPol nR]
    simp only [floatsOf, List.mem_cons, List.not_mem_nil, or_false] at hm
    omega
  | af =>
    have hc : dataMetaCount .af nR nPol nCh nAnt = nPol * (nCh + nAnt) := rfl
    have h1 := ant_index_lt (nCh := nCh) (hA rfl r hr).1 hp
    have h2 := ant_index_lt (nCh := nCh) (hA rfl r hr).2 hp
    rw [hc]
    have h3 : nPol * nCh ≤ nPol * (nCh + nAnt) := Nat.mul_le_mul_left _ (Nat.le_add_right _ _)
    simp only [floatsOf, List.mem_cons, List.not_mem_nil, or_false] at hm
    omega

/-- **C132** One damaged byte of a data block. Whatever it becomes, both blocks can be read, and
* if it is byte `c` of the symbols, the samples whose bits do not meet the bits `8 * c`, …, `8 * c + 7` are unchanged,
* if it is in float `m` of the metadata, the samples that do not have that float are unchanged. -/
theorem data_byte_damage (norm : Norm) {e : Encoder} {b l : Nat → ℚ} {L : ℚ} (hT : Table e b l L)
    (hb : Supported bits) (hq : e.quantCount = 2 ^ bits) (hA : norm = .af → AF.AntennasBelow nR nAnt A) {d d' : Mem 8}
    (hl : d.len = blockSize (dataMetaCount norm nR nPol nCh nAnt) (symbolCount nR nPol nCh) bits)
    {k : Nat} (hd : Damaged d d' k)
    {dflt dflt' : DataRow Cx} {out out' : Buf Nat} (ho : out.len = symbolCount nR nPol nCh)
    (ho' : out'.len = symbolCount nR nPol nCh) (rows rows' : Block Cx) :
    ∃ x x', readBlock (decData norm e nPol nCh nAnt A) bits (dataMetaCount norm nR nPol nCh nAnt)
        (symbolCount nR nPol nCh) nR dflt d out rows = .ok x ∧
      readBlock (decData norm e nPol nCh nAnt A) bits (dataMetaCount norm nR nPol nCh nAnt)
        (symbolCount nR nPol nCh) nR dflt' d' out' rows' = .ok x' ∧
      (∀ c, k = 4 * dataMetaCount norm nR nPol nCh nAnt + c → ∀ r i, r < nR → i < nPol * nCh →
        (8 * c + 8 ≤ (r * (nPol * nCh) + i) * (2 * bits) ∨ (r * (nPol * nCh) + i + 1) * (2 * bits) ≤ 8 * c) →
        (x.get r).vis.get i = (x'.get r).vis.get i) ∧
      ∀ m, m < dataMetaCount norm nR nPol nCh nAnt → OfFloat m k → ∀ r i, r < nR → i < nPol * nCh →
        m ∉ floatsOf norm nPol nCh nAnt A r i → (x.get r).vis.get i = (x'.get r).vis.get i := by
  obtain ⟨x, x', e1, e2, g⟩ := data_damage norm hT hb hq hA hl hd.1 (dflt := dflt) (dflt' := dflt') ho ho' rows rows'
  refine ⟨x, x', e1, e2, ?_, ?_⟩
  · intro c hk r i hr hi hc
    refine g r i hr hi (fun m hm j hj => hd.2 j ?_) (fun j hj => hd.2 j ?_)
    · have := floatsOf_lt hA hr hi hm
      unfold OfFloat at hj
      omega
    · obtain ⟨t, ht, rfl⟩ := hj
      rw [Nat.succ_mul (r * (nPol * nCh) + i)] at hc
      generalize (r * (nPol * nCh) + i) * (2 * bits) = s at *
      omega
  · intro m hm hk r i hr hi hn
    refine g r i hr hi (fun m' hm' j hj => hd.2 j ?_) (fun j hj => hd.2 j ?_)
    · rintro rfl
      have : m' = m := by unfold OfFloat at hj hk; omega
      exact hn (this ▸ hm')
    · obtain ⟨t, ht, rfl⟩ := hj
      unfold OfFloat at hk
      omega

/-- **C132** With row normalisation a damaged factor belongs to one row: all other rows are unchanged. -/
theorem row_factor_damage {e : Encoder} {b l : Nat → ℚ} {L : ℚ} (hT : Table e b l L)
    (hb : Supported bits) (hq : e.quantCount = 2 ^ bits) {d d' : Mem 8}
    (hl : d.len = blockSize (dataMetaCount .row nR nPol nCh nAnt) (symbolCount nR nPol nCh) bits)
    {q k : Nat} (hk : OfFloat q k) (hqr : q < nR) (hd : Damaged d d' k)
    {dflt dflt' : DataRow Cx} {out out' : Buf Nat} (ho : out.len = symbolCount nR nPol nCh)
    (ho' : out'.len = symbolCount nR nPol nCh) (rows rows' : Block Cx) :
    ∃ x x', readBlock (decData .row e nPol nCh nAnt A) bits (dataMetaCount .row nR nPol nCh nAnt)
        (symbolCount nR nPol nCh) nR dflt d out rows = .ok x ∧
      readBlock (decData .row e nPol nCh nAnt A) bits (dataMetaCount .row nR nPol nCh nAnt)
        (symbolCount nR nPol nCh) nR dflt' d' out' rows' = .ok x' ∧
      ∀ r i, r < nR → i < nPol * nCh → r ≠ q → (x.get r).vis.get i = (x'.get r).vis.get i := by
  obtain ⟨x, x', e1, e2, -, g⟩ := data_byte_damage .row hT hb hq (A := A) (by simp) hl hd (dflt := dflt) (dflt' := dflt')
    ho ho' rows rows'
  exact ⟨x, x', e1, e2, fun r i hr hi hn => g q hqr hk r i hr hi (by simp [floatsOf]; exact fun h => hn h.symm)⟩

/-- **C132** With antenna-frequency normalisation a damaged antenna factor concerns the rows with that antenna, in one
polarisation. -/
theorem antenna_factor_damage {e : Encoder} {b l : Nat → ℚ} {L : ℚ} (hT : Table e b l L)
    (hb : Supported bits) (hq : e.quantCount = 2 ^ bits) (hA : AF.AntennasBelow nR nAnt A) {d d' : Mem 8}
    (hl : d.len = blockSize (dataMetaCount .af nR nPol nCh nAnt) (symbolCount nR nPol nCh) bits)
    {p a k : Nat} (hp : p < nPol) (ha : a < nAnt) (hk : OfFloat (nPol * nCh + (nAnt * p + a)) k) (hd : Damaged d d' k)
    {dflt dflt' : DataRow Cx} {out out' : Buf Nat} (ho : out.len = symbolCount nR nPol nCh)
    (ho' : out'.len = symbolCount nR nPol nCh) (rows rows' : Block Cx) :
    ∃ x x', readBlock (decData .af e nPol nCh nAnt A) bits (dataMetaCount .af nR nPol nCh nAnt)
        (symbolCount nR nPol nCh) nR dflt d out rows = .ok x ∧
      readBlock (decData .af e nPol nCh nAnt A) bits (dataMetaCount .af nR nPol nCh nAnt)
        (symbolCount nR nPol nCh) nR dflt' d' out' rows' = .ok x' ∧
      ∀ r i, r < nR → i < nPol * nCh → (i % nPol ≠ p ∨ ((A r).1 ≠ a ∧ (A r).2 ≠ a)) →
        (x.get r).vis.get i = (x'.get r).vis.get i := by
  obtain ⟨x, x', e1, e2, -, g⟩ := data_byte_damage .af hT hb hq (A := A) (fun _ => hA) hl hd (dflt := dflt) (dflt' := dflt')
    ho ho' rows rows'
  refine ⟨x, x', e1, e2, fun r i hr hi hn => g _ (ant_index_lt ha hp) hk r i hr hi ?_⟩
  have hone : ∀ x, x < nAnt → nAnt * (i % nPol) + x = nAnt * p + a → i % nPol = p ∧ x = a := by
    intro x hx h
    have h1 : (nAnt * (i % nPol) + x) / nAnt = (nAnt * p + a) / nAnt := by rw [h]
    rw [Nat.mul_add_div (by omega), Nat.mul_add_div (by omega), Nat.div_eq_of_lt hx, Nat.div_eq_of_lt ha] at h1
    rw [Nat.add_zero, Nat.add_zero] at h1
    rw [h1] at h
    omega
  simp only [floatsOf, List.mem_cons, List.not_mem_nil, or_false, not_or]
  refine ⟨by omega, fun h => ?_, fun h => ?_⟩
  · have := hone _ (hA r hr).1 (by omega)
    omega
  · have := hone _ (hA r hr).2 (by omega)
    omega

/-- **C132** One damaged byte in the symbols of a weight block: only the channels with bits in it can change. -/
theorem weight_byte_damage (hb : Supported bits) (hc : 0 < nCh) {d d' : Mem 8}
    (hl : d.len = blockSize Weight.metaDataFloatCount (Weight.symbolCount nR nCh) bits) {c : Nat} (hd : Damaged d d' (4 + c))
    {dflt dflt' : DataRow Fl} {out out' : Buf Nat} (ho : out.len = Weight.symbolCount nR nCh)
    (ho' : out'.len = Weight.symbolCount nR nCh) (rows rows' : Block Fl) :
    ∃ x x', readBlock (decWeight nPol nCh bits) bits Weight.metaDataFloatCount
        (Weight.symbolCount nR nCh) nR dflt d out rows = .ok x ∧
      readBlock (decWeight nPol nCh bits) bits Weight.metaDataFloatCount
        (Weight.symbolCount nR nCh) nR dflt' d' out' rows' = .ok x' ∧
      ∀ r i, r < nR → i < nCh * nPol →
        (8 * c + 8 ≤ (r * nCh + i / nPol) * bits ∨ (r * nCh + i / nPol + 1) * bits ≤ 8 * c) →
        (x.get r).vis.get i = (x'.get r).vis.get i := by
  obtain ⟨x, x', e1, e2, g⟩ := weight_damage (nPol := nPol) hb hc hl hd.1 (dflt := dflt) (dflt' := dflt') ho ho' rows rows'
  refine ⟨x, x', e1, e2, fun r i hr hi h => g r i hr hi (fun k hk => hd.2 k (by omega)) (fun k hk => hd.2 k ?_)⟩
  obtain ⟨t, ht, rfl⟩ := hk
  rw [Nat.succ_mul (r * nCh + i / nPol)] at h
  generalize (r * nCh + i / nPol) * bits = s at *
  omega

/-! ## Rows of a block with row normalisation -/

theorem maxFold_congr {n : Nat} {v v' : Nat → Cx} (h : ∀ i, i < n → v i = v' i) : maxFold v n = maxFold v' n := by
  obtain ⟨M, e, h0, h1, h2⟩ := maxFold_spec v n
  rw [e]
  refine (maxFold_eq ⟨h0, fun i m hi hc => h1 i m hi (by rw [h i hi]; exact hc), ?_⟩).symm
  rcases h2 with h2 | ⟨i, hi, hc⟩
  · exact Or.inl h2
  · exact Or.inr ⟨i, hi, by rw [← h i hi]; exact hc⟩

/-- **C133** With row normalisation, what is read back for a row depends only on the values of that row and on the dither
values that the row gets: writing the row at any position of any other block, with whatever other rows, gives the same
values. -/
theorem row_independent {nR' nAnt' : Nat} {A' : Nat → Nat × Nat} {D D' : Nat → Nat → Cx} {data data' : Block Cx}
    (sq : Fl → Fl) {e : Encoder} {b l : Nat → ℚ} {L : ℚ} (hT : Table e b l L) (hb : Supported bits)
    (hq : e.quantCount = 2 ^ bits) (h : Holds nR (nPol * nCh) A D data) (h' : Holds nR' (nPol * nCh) A' D' data')
    {dith dith' : Nat → Nat} {r r' : Nat} (hr : r < nR) (hr' : r' < nR')
    (hD : ∀ i, i < nPol * nCh → D r i = D' r' i)
    (hdith : ∀ k, k < nPol * nCh * 2 → dith (r * (nPol * nCh) * 2 + k) = dith' (r' * (nPol * nCh) * 2 + k))
    (fuel fuel' : Nat) {packed packed' : Mem 8} {unpacked unpacked' out out' : Buf Nat}
    (hp : packed.len = blockSize (dataMetaCount .row nR nPol nCh nAnt) (symbolCount nR nPol nCh) bits)
    (hp' : packed'.len = blockSize (dataMetaCount .row nR' nPol nCh nAnt') (symbolCount nR' nPol nCh) bits)
    (hu : unpacked.len = symbolCount nR nPol nCh) (hu' : unpacked'.len = symbolCount nR' nPol nCh)
    (ho : out.len = symbolCount nR nPol nCh) (ho' : out'.len = symbolCount nR' nPol nCh)
    (dflt dflt' : DataRow Cx) (rows rows' : Block Cx) :
    ∃ d d' x x', writeBlock (encData .row sq e nPol nCh nAnt dith fuel data) bits (dataMetaCount .row nR nPol nCh nAnt)
        (symbolCount nR nPol nCh) packed unpacked = .ok d ∧
      writeBlock (encData .row sq e nPol nCh nAnt' dith' fuel' data') bits (dataMetaCount .row nR' nPol nCh nAnt')
        (symbolCount nR' nPol nCh) packed' unpacked' = .ok d' ∧
      readBlock (decData .row e nPol nCh nAnt A) bits (dataMetaCount .row nR nPol nCh nAnt)
        (symbolCount nR nPol nCh) nR dflt d out rows = .ok x ∧
      readBlock (decData .row e nPol nCh nAnt' A') bits (dataMetaCount .row nR' nPol nCh nAnt')
        (symbolCount nR' nPol nCh) nR' dflt' d' out' rows' = .ok x' ∧
      ∀ i, i < nPol * nCh → (x.get r).vis.get i = (x'.get r').vis.get i := by
  have hone : ∀ {nR nAnt : Nat} {A : Nat → Nat × Nat} {D : Nat → Nat → Cx} {data : Block Cx}
      (_ : Holds nR (nPol * nCh) A D data) (dith : Nat → Nat) (fuel : Nat) {packed : Mem 8} {unpacked out : Buf Nat}
      (_ : packed.len = blockSize (dataMetaCount .row nR nPol nCh nAnt) (symbolCount nR nPol nCh) bits)
      (_ : unpacked.len = symbolCount nR nPol nCh) (_ : out.len = symbolCount nR nPol nCh)
      (dflt : DataRow Cx) (rows : Block Cx) {r : Nat} (_ : r < nR),
      ∃ (d : Mem 8) (x : Block Cx) (f : Fl) (s : Nat → Nat), writeBlock (encData .row sq e nPol nCh nAnt dith fuel data) bits (dataMetaCount .row nR nPol nCh nAnt)
          (symbolCount nR nPol nCh) packed unpacked = .ok d ∧
        readBlock (decData .row e nPol nCh nAnt A) bits (dataMetaCount .row nR nPol nCh nAnt)
          (symbolCount nR nPol nCh) nR dflt d out rows = .ok x ∧
        f = Fl.cast Fl.r32 (Fl.div Fl.r64 (maxFold (D r) (nPol * nCh)) e.maxQuantity) ∧
        (∀ i, i < nPol * nCh →
          encFn Fl.r32 e true (Fl.cast Fl.r32 (Fl.mul Fl.r64 (D r i).re
            (Row.rowFactor Fl.r64 e.maxQuantity (maxFold (D r) (nPol * nCh))))) (dith (r * (nPol * nCh) * 2 + i * 2)) =
              some (s (i * 2)) ∧
          encFn Fl.r32 e true (Fl.cast Fl.r32 (Fl.mul Fl.r64 (D r i).im
            (Row.rowFactor Fl.r64 e.maxQuantity (maxFold (D r) (nPol * nCh))))) (dith (r * (nPol * nCh) * 2 + (i * 2 + 1))) =
              some (s (i * 2 + 1))) ∧
        ∀ i, i < nPol * nCh → (x.get r).vis.get i =
          ⟨Fl.cast Fl.r32 (Fl.mul Fl.r64 (e.level (s (i * 2))) f), Fl.cast Fl.r32 (Fl.mul Fl.r64 (e.level (s (i * 2 + 1))) f)⟩ := by
    intro nR nAnt A D data h dith fuel packed unpacked out hp hu ho dflt rows r hr
    obtain ⟨m0, s0, w⟩ : ∃ m s, Writes (encData .row sq e nPol nCh nAnt dith fuel data)
        (dataMetaCount .row nR nPol nCh nAnt) (symbolCount nR nPol nCh) e.quantCount m s := by
      rcases dataWrites (nAnt := nAnt) .row sq hT h (by omega) (by simp) dith fuel with ⟨h1, -⟩ | h1
      · cases h1
      · exact h1
    have w' := w
    rw [hq] at w
    obtain ⟨blk, l1, g1, g2, g3⟩ := writeBlock_spec hb w
    obtain ⟨d, e1, l2, e2⟩ := g1 packed unpacked hp hu
    have hH : End.BlockHolds bits (dataMetaCount .row nR nPol nCh nAnt) (symbolCount nR nPol nCh) m0 s0 d :=
      End.holds_of_writes hb w hp hu e1
    have hR := dataReads (nR := nR) (nPol := nPol) (nCh := nCh) (nAnt := nAnt) (A := A) .row hT (by simp)
    rw [hq] at hR
    obtain ⟨x, e3, -, g4⟩ := readBlock_spec hR hH.metaLen hH.symLen hH.below hH.size hH.floats hH.symbols dflt out ho rows
    -- what the encoder gives
    obtain ⟨m, s, a1, a2, a3, a4, -, -, -, a8⟩ := Row.encode_spec (RF := Fl.r32) (RD := Fl.r64) (hT.total Fl.r32 true)
      (maxLevel := e.maxQuantity) (dith := dith) h ⟨nR, fun _ => .nan⟩ (Nat.le_refl _)
      ⟨symbolCount nR nPol nCh, fun _ => 0⟩ (by rw [symbolCount_eq])
    obtain ⟨m1, s1, b1, -, -, b4, b5⟩ := w'.same ⟨nR, fun _ => .nan⟩ ⟨symbolCount nR nPol nCh, fun _ => 0⟩ rfl
      (fun _ _ => rfl) rfl
    obtain ⟨rfl, rfl⟩ : m = m1 ∧ s = s1 := by
      simp only [encData] at b1
      rw [a1] at b1
      simpa using b1
    refine ⟨d, x, m0.get r, fun k => s0.get (r * (nPol * nCh) * 2 + k), e1, e3, by rw [← b4 r hr, a4 r hr], fun i hi => ?_,
      fun i hi => ?_⟩
    · have hlt : (r * (nPol * nCh) + i) * 2 + 1 < symbolCount nR nPol nCh := by
        rw [symbolCount_eq]
        have := flat_lt hr hi
        omega
      have := a8 r i hr hi
      have ei : r * (nPol * nCh) * 2 + i * 2 = (r * (nPol * nCh) + i) * 2 := by ring
      have ej : r * (nPol * nCh) * 2 + (i * 2 + 1) = (r * (nPol * nCh) + i) * 2 + 1 := by ring
      simp only [ei, ej]
      rw [← b5 _ (by omega), ← b5 _ hlt]
      exact this
    · rw [(g4 r hr).2 i hi]
      have ei : r * (nPol * nCh) * 2 + i * 2 = (r * (nPol * nCh) + i) * 2 := by ring
      have ej : r * (nPol * nCh) * 2 + (i * 2 + 1) = (r * (nPol * nCh) + i) * 2 + 1 := by ring
      simp only [ei, ej]
      rfl
  obtain ⟨d, x, f, s, e1, e2, e3, e4, e5⟩ := hone h dith fuel hp hu ho dflt rows hr
  obtain ⟨d', x', f', s', e1', e2', e3', e4', e5'⟩ := hone h' dith' fuel' hp' hu' ho' dflt' rows' hr'
  refine ⟨d, d', x, x', e1, e1', e2, e2', fun i hi => ?_⟩
  have hmx := maxFold_congr (n := nPol * nCh) hD
  obtain ⟨p1, p2⟩ := e4 i hi
  obtain ⟨q1, q2⟩ := e4' i hi
  rw [hmx, hD i hi, hdith (i * 2) (by omega)] at p1
  rw [hmx, hD i hi, hdith (i * 2 + 1) (by omega)] at p2
  rw [p1] at q1
  rw [p2] at q2
  rw [e5 i hi, e5' i hi, e3, e3', hmx, Option.some.inj q1, Option.some.inj q2]

/-! ## The other normalisations and weights -/

/-- The real parts of row 0 of two rows after writing and reading them back with one polarisation, two channels and two
bits. Not in the code. -/
def firstRow (norm : Norm) (D : Nat → Nat → ℚ) : Option (List Fl) :=
  match writeBlock (encData norm id Row.smallTable 1 2 2 (fun _ => 0) 10
      ⟨2, fun r => ⟨0, 1, ⟨2, fun i => ⟨.fin (D r i), .fin (D r i)⟩⟩⟩⟩) 2 (dataMetaCount norm 2 1 2 2) 8
      ⟨4 * dataMetaCount norm 2 1 2 2 + 2, fun _ => 0⟩ ⟨8, fun _ => 0⟩ with
  | .ok d =>
    match readBlock (decData norm Row.smallTable 1 2 2 (fun _ => (0, 1))) 2 (dataMetaCount norm 2 1 2 2) 8 2
        ⟨0, 0, ⟨0, fun _ => ⟨.nan, .nan⟩⟩⟩ d ⟨8, fun _ => 0⟩ ⟨0, fun _ => ⟨0, 0, ⟨0, fun _ => ⟨.nan, .nan⟩⟩⟩⟩ with
    | .ok x => some [((x.get 0).vis.get 0).re, ((x.get 0).vis.get 1).re]
    | _ => none
  | _ => none

/-- The weights of row 0 of two rows after writing and reading them back, with two bits. Not in the code. -/
def firstWeight (w : Nat → ℚ) : Option Fl :=
  match writeBlock (encWeight 1 1 2 ⟨2, fun r => ⟨0, 0, ⟨1, fun _ => .fin (w r)⟩⟩⟩) 2 1 2 ⟨5, fun _ => 0⟩ ⟨2, fun _ => 0⟩ with
  | .ok d =>
    match readBlock (decWeight 1 1 2) 2 1 2 2 ⟨0, 0, ⟨0, fun _ => .nan⟩⟩ d ⟨2, fun _ => 0⟩
        ⟨0, fun _ => ⟨0, 0, ⟨0, fun _ => .nan⟩⟩⟩ with
    | .ok x => some ((x.get 0).vis.get 0)
    | _ => none
  | _ => none

/-- With row-frequency normalisation another row of the block changes what is read back: the values `1, 3/4` come back as
they are next to a row `1, 3/4`, and as `1, 1` next to a row `1, 3`. With row normalisation this cannot happen. -/
theorem rf_not_independent :
    firstRow .rf (fun _ i => if i = 0 then 1 else 3 / 4) = some [.fin 1, .fin (3 / 4)] ∧
    firstRow .rf (fun r i => if i = 0 then 1 else if r = 0 then 3 / 4 else 3) = some [.fin 1, .fin 1] ∧
    firstRow .row (fun _ i => if i = 0 then 1 else 3 / 4) =
      firstRow .row (fun r i => if i = 0 then 1 else if r = 0 then 3 / 4 else 3) := by
  decide +kernel

/-- A large weight in the block makes the others zero. -/
theorem weights_not_independent :
    firstWeight (fun _ => 1) = some (.fin 1) ∧ firstWeight (fun r => if r = 0 then 1 else 1000) = some (.fin 0) := by
  decide +kernel

/-! ## Examples -/

/-- A block of two rows of three samples with two bits, with any bytes, of which byte 9 (byte 1 of the symbols: bits 8 to
15, samples 2 and 3) is damaged: sample 0 of row 0 and sample 1 of row 1 (numbers 0 and 4) are as before. -/
example (g : Nat → BitVec 8) (x0 : BitVec 8) (dflt : DataRow Cx) (rows : Block Cx) :
    ∃ x x', readBlock (decData .row Row.smallTable 1 3 2 fun _ => (0, 1)) 2 2 12 2 dflt ⟨11, g⟩ ⟨12, fun _ => 0⟩ rows = .ok x ∧
      readBlock (decData .row Row.smallTable 1 3 2 fun _ => (0, 1)) 2 2 12 2 dflt ⟨11, fun j => if j = 9 then x0 else g j⟩
        ⟨12, fun _ => 7⟩ rows = .ok x' ∧ (x.get 0).vis.get 0 = (x'.get 0).vis.get 0 ∧
      (x.get 1).vis.get 1 = (x'.get 1).vis.get 1 := by
  obtain ⟨x, x', e1, e2, h, -⟩ := data_byte_damage (nR := 2) (nPol := 1) (nCh := 3) (nAnt := 2) (A := fun _ => (0, 1)) (bits := 2)
    .row Row.smallTable_ok (Or.inl rfl) rfl (by simp) (d := ⟨11, g⟩) (d' := ⟨11, fun j => if j = 9 then x0 else g j⟩)
    rfl (k := 9) ⟨rfl, fun j hj => by simp [hj]⟩ (dflt := dflt) (dflt' := dflt) (out := ⟨12, fun _ => 0⟩)
    (out' := ⟨12, fun _ => 7⟩) rfl rfl rows rows
  exact ⟨x, x', e1, e2, h 1 rfl 0 0 (by decide) (by decide) (by decide), h 1 rfl 1 1 (by decide) (by decide) (by decide)⟩

/-- With antennas 0 and 1 in row 0 and 1 and 2 in row 1, damage in the factor of antenna 2 leaves row 0 as it is. -/
example (g : Nat → BitVec 8) (x0 : BitVec 8) (dflt : DataRow Cx) (rows : Block Cx) :
    ∃ x x', readBlock (decData .af Row.smallTable 1 1 3 fun r => (r, r + 1)) 2 4 4 2 dflt ⟨17, g⟩ ⟨4, fun _ => 0⟩ rows = .ok x ∧
      readBlock (decData .af Row.smallTable 1 1 3 fun r => (r, r + 1)) 2 4 4 2 dflt ⟨17, fun j => if j = 14 then x0 else g j⟩
        ⟨4, fun _ => 0⟩ rows = .ok x' ∧ (x.get 0).vis.get 0 = (x'.get 0).vis.get 0 := by
  obtain ⟨x, x', e1, e2, h⟩ := antenna_factor_damage (nR := 2) (nPol := 1) (nCh := 1) (nAnt := 3) (A := fun r => (r, r + 1))
    (bits := 2) Row.smallTable_ok (Or.inl rfl) rfl (fun r hr => ⟨by simp only; omega, by simp only; omega⟩) (d := ⟨17, g⟩)
    (d' := ⟨17, fun j => if j = 14 then x0 else g j⟩) rfl (p := 0) (a := 2) (k := 14) (by decide) (by decide)
    ⟨by decide, by decide⟩ ⟨rfl, fun j hj => by simp [hj]⟩ (dflt := dflt) (dflt' := dflt) (out := ⟨4, fun _ => 0⟩)
    (out' := ⟨4, fun _ => 0⟩) rfl rfl rows rows
  exact ⟨x, x', e1, e2, h 0 0 (by decide) (by decide) (by decide)⟩

/-- Damage in the factor of row 1. -/
example (g : Nat → BitVec 8) (x0 : BitVec 8) (dflt : DataRow Cx) (rows : Block Cx) :
    ∃ x x', readBlock (decData .row Row.smallTable 1 3 2 fun _ => (0, 1)) 2 2 12 2 dflt ⟨11, g⟩ ⟨12, fun _ => 0⟩ rows = .ok x ∧
      readBlock (decData .row Row.smallTable 1 3 2 fun _ => (0, 1)) 2 2 12 2 dflt ⟨11, fun j => if j = 6 then x0 else g j⟩
        ⟨12, fun _ => 0⟩ rows = .ok x' ∧ (x.get 0).vis.get 2 = (x'.get 0).vis.get 2 := by
  obtain ⟨x, x', e1, e2, h⟩ := row_factor_damage (nR := 2) (nPol := 1) (nCh := 3) (nAnt := 2) (A := fun _ => (0, 1)) (bits := 2)
    Row.smallTable_ok (Or.inl rfl) rfl (d := ⟨11, g⟩) (d' := ⟨11, fun j => if j = 6 then x0 else g j⟩) rfl (q := 1)
    (k := 6) ⟨by decide, by decide⟩ (by decide) ⟨rfl, fun j hj => by simp [hj]⟩ (dflt := dflt) (dflt' := dflt)
    (out := ⟨12, fun _ => 0⟩) (out' := ⟨12, fun _ => 0⟩) rfl rfl rows rows
  exact ⟨x, x', e1, e2, h 0 2 (by decide) (by decide) (by decide)⟩

/-- Weights: byte 5 holds bits 8 to 15, with two bits channels 4 to 7; channel 3 is as before. -/
example (g : Nat → BitVec 8) (x0 : BitVec 8) (dflt : DataRow Fl) (rows : Block Fl) :
    ∃ x x', readBlock (decWeight 2 8 2) 2 1 8 1 dflt ⟨6, g⟩ ⟨8, fun _ => 0⟩ rows = .ok x ∧
      readBlock (decWeight 2 8 2) 2 1 8 1 dflt ⟨6, fun j => if j = 5 then x0 else g j⟩ ⟨8, fun _ => 0⟩ rows = .ok x' ∧
      (x.get 0).vis.get 7 = (x'.get 0).vis.get 7 := by
  obtain ⟨x, x', e1, e2, h⟩ := weight_byte_damage (nR := 1) (nPol := 2) (nCh := 8) (bits := 2) (Or.inl rfl) (by decide)
    (d := ⟨6, g⟩) (d' := ⟨6, fun j => if j = 5 then x0 else g j⟩) rfl (c := 1) ⟨rfl, fun j hj => by simp [hj]⟩
    (dflt := dflt) (dflt' := dflt) (out := ⟨8, fun _ => 0⟩) (out' := ⟨8, fun _ => 0⟩) rfl rfl rows rows
  exact ⟨x, x', e1, e2, h 0 7 (by decide) (by decide) (by decide)⟩

/-- Row 0 of a block of two rows, and row 2 of a block of three rows with other values elsewhere. -/
example (D : Nat → Cx) (E F : Nat → Nat → Cx) (dflt : DataRow Cx) (rows : Block Cx) :
    ∃ d d' x x', writeBlock (encData .row id Row.smallTable 1 3 2 (fun _ => 0) 5
        ⟨2, fun r => ⟨0, 1, ⟨3, if r = 0 then D else E r⟩⟩⟩) 2 2 12 ⟨11, fun _ => 0⟩ ⟨12, fun _ => 0⟩ = .ok d ∧
      writeBlock (encData .row id Row.smallTable 1 3 4 (fun _ => 0) 5
        ⟨3, fun r => ⟨2, 3, ⟨3, if r = 2 then D else F r⟩⟩⟩) 2 3 18 ⟨17, fun _ => 0⟩ ⟨18, fun _ => 0⟩ = .ok d' ∧
      readBlock (decData .row Row.smallTable 1 3 2 fun _ => (0, 1)) 2 2 12 2 dflt d ⟨12, fun _ => 0⟩ rows = .ok x ∧
      readBlock (decData .row Row.smallTable 1 3 4 fun _ => (2, 3)) 2 3 18 3 dflt d' ⟨18, fun _ => 0⟩ rows = .ok x' ∧
      ∀ i, i < 1 * 3 → (x.get 0).vis.get i = (x'.get 2).vis.get i :=
  row_independent (nR := 2) (nR' := 3) (nPol := 1) (nCh := 3) (nAnt := 2) (nAnt' := 4) (bits := 2)
    (D := fun r => if r = 0 then D else E r) (D' := fun r => if r = 2 then D else F r)
    (A := fun _ => (0, 1)) (A' := fun _ => (2, 3)) id Row.smallTable_ok (Or.inl rfl) rfl
    ⟨rfl, fun _ _ => rfl, fun _ _ => rfl, fun _ _ _ _ => rfl⟩ ⟨rfl, fun _ _ => rfl, fun _ _ => rfl, fun _ _ _ _ => rfl⟩
    (r := 0) (r' := 2) (by decide) (by decide) (fun _ _ => by simp) (fun _ _ => rfl) 5 5 rfl rfl rfl rfl rfl rfl dflt dflt rows rows

end Dysco.Layout
