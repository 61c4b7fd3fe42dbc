import Verif.EndModel
import Verif.ReopenProps
import Verif.ColumnWhole
import Verif.RowFloat
import Verif.BlockProps

/-!
# C61: what is read back after closing and reopening
-/

namespace Dysco.End
open BytePacker Layout StMan TimeBlock
open Stochastic hiding valueOf

/-! ## Bytes of a block -/

/-- The bytes `d` hold this metadata and these symbols. -/
structure BlockHolds (bits nMeta nSym : Nat) (metaB : Buf Fl) (sym : Buf Nat) (d : Mem 8) : Prop where
  metaLen : metaB.len = nMeta
  symLen : sym.len = nSym
  below : ∀ j, j < nSym → sym.get j < 2 ^ bits
  size : d.len = blockSize nMeta nSym bits
  floats : ∀ j, j < nMeta → (metaView nMeta d).get j = metaB.get j
  symbols : ∀ out : Buf Nat, out.len = nSym → ∃ s, unpack bits (symMem out) (tail (4 * nMeta) d) nSym = .ok s ∧
    s.len = nSym ∧ ∀ j, j < nSym → (s.get j).toNat = sym.get j

theorem unpack_congr {bits n : Nat} (hb : Supported bits) {p p' : Mem 8} (out : Mem 32) (ho : n ≤ out.len)
    (h1 : bufferSize n bits ≤ p.len) (h2 : bufferSize n bits ≤ p'.len)
    (he : ∀ k, k < bufferSize n bits → p.get k = p'.get k) {s s' : Mem 32}
    (e : unpack bits out p n = .ok s) (e' : unpack bits out p' n = .ok s') :
    s.len = s'.len ∧ ∀ j, j < n → s.get j = s'.get j := by
  obtain ⟨m, a1, a2⟩ := unpack_stream bits n out p hb ho h1
  obtain ⟨m', b1, b2⟩ := unpack_stream bits n out p' hb ho h2
  obtain rfl : m = s := by rw [a1] at e; simpa using e
  obtain rfl : m' = s' := by rw [b1] at e'; simpa using e'
  refine ⟨by rw [a2.1, b2.1], fun j hj => ?_⟩
  apply BitVec.eq_of_getLsbD_eq
  intro t ht
  rw [a2.2.1 j hj t ht, b2.2.1 j hj t ht]
  by_cases h : t < bits
  · rw [if_pos h, if_pos h]
    have h5 : (j + 1) * bits ≤ n * bits := Nat.mul_le_mul_right _ hj
    rw [Nat.add_mul] at h5
    unfold byteBit
    rw [he _ (by rw [bufferSize_eq]; unfold bytesFor; split <;> omega)]
  · rw [if_neg h, if_neg h]

theorem BlockHolds.congr {bits nMeta nSym : Nat} (hb : Supported bits) {metaB : Buf Fl} {sym : Buf Nat}
    {d d' : Mem 8} (h : BlockHolds bits nMeta nSym metaB sym d) (hl : d'.len = d.len)
    (he : ∀ k, k < blockSize nMeta nSym bits → d'.get k = d.get k) :
    BlockHolds bits nMeta nSym metaB sym d' := by
  have hs := h.size
  refine ⟨h.metaLen, h.symLen, h.below, by rw [hl, hs], ?_, ?_⟩
  · intro j hj
    rw [← h.floats j hj]
    unfold blockSize at he
    simp only [metaView, if_pos hj, le32]
    rw [he _ (by omega), he _ (by omega), he _ (by omega), he _ (by omega)]
  · intro out ho
    obtain ⟨s, e, l, g⟩ := h.symbols out ho
    have k1 : bufferSize nSym bits ≤ (tail (4 * nMeta) d).len := by
      unfold blockSize at hs
      simp only [tail]
      omega
    have k2 : bufferSize nSym bits ≤ (tail (4 * nMeta) d').len := by
      simp only [tail] at k1 ⊢
      rw [hl]
      exact k1
    have k3 : nSym ≤ (symMem out).len := by simp only [symMem]; omega
    obtain ⟨s', e', _⟩ := unpack_stream bits nSym (symMem out) (tail (4 * nMeta) d') hb k3 k2
    obtain ⟨c1, c2⟩ := unpack_congr hb (symMem out) k3 k2 k1 (fun k hk => by
      simp only [tail]
      exact he _ (by unfold blockSize; omega)) e' e
    exact ⟨s', e', by rw [c1, l], fun j hj => by rw [c2 j hj]; exact g j hj⟩

/-- What `writeBlock` gives for a codec that writes the announced layout. -/
theorem holds_of_writes {enc : Buf Fl → Buf Nat → Option (Option (Buf Fl × Buf Nat))} {bits nMeta nSym : Nat}
    (hb : Supported bits) {metaB : Buf Fl} {sym : Buf Nat} (h : Writes enc nMeta nSym (2 ^ bits) metaB sym)
    {packed : Mem 8} {unpacked : Buf Nat} (hp : packed.len = blockSize nMeta nSym bits)
    (hu : unpacked.len = nSym) {d : Mem 8} (e : writeBlock enc bits nMeta nSym packed unpacked = .ok d) :
    BlockHolds bits nMeta nSym metaB sym d := by
  obtain ⟨blk, l1, g1, g2, g3⟩ := writeBlock_spec hb h
  obtain ⟨m, e', l, g⟩ := g1 packed unpacked hp hu
  obtain rfl : m = d := by rw [e'] at e; simpa using e
  exact BlockHolds.congr hb ⟨h.metaLen, h.symLen, h.below, l1, g2, g3⟩ l (fun k hk => g k (by rw [l1]; exact hk))

/-! ## Which write of a column is the last of a block -/

theorem mem_colWrites {i : Nat} {ops : List BlockOp} {b : Nat} {d : Mem 8} :
    (b, d) ∈ colWrites i ops ↔ .write b i d ∈ ops := by
  unfold colWrites
  rw [List.mem_filterMap]
  constructor
  · rintro ⟨op, h, e⟩
    cases op with
    | write b' j d' =>
      simp only at e
      split at e
      · rename_i hj
        simp only [Option.some.injEq, Prod.mk.injEq] at e
        obtain ⟨rfl, rfl⟩ := e
        subst hj
        exact h
      · simp at e
    | read => simp at e
    | header => simp at e
  · intro h
    exact ⟨_, h, by simp⟩

/-- If the threads wrote block `b` once, the operations contain one write of that block. -/
theorem single_write {α : Type} {K : Codec α} {c : Column} {rpb i : Nat} {ops : List BlockOp}
    {writes : List (Nat × Col.Rows (DataRow α))} (h : Implements K c rpb i ops writes) {b : Nat}
    {rows : Col.Rows (DataRow α)} (ho : Col.ofBlock writes b = [rows]) :
    ∃ before d after, ops = before ++ .write b i d :: after ∧ NotWritten after b i ∧ Encodes K c rpb rows d := by
  unfold Implements at h
  -- induction over the operations
  induction ops generalizing writes with
  | nil =>
    have : writes = [] := by simpa [colWrites] using h
    subst this
    simp [Col.ofBlock] at ho
  | cons op ops ih =>
    by_cases hop : ∃ b' d', op = .write b' i d'
    · obtain ⟨b', d', rfl⟩ := hop
      have ec : colWrites i (.write b' i d' :: ops) = (b', d') :: colWrites i ops := by simp [colWrites]
      rw [ec] at h
      cases h with
      | cons hx ht =>
        rename_i y ys
        obtain ⟨hy1, hy2⟩ := hx
        by_cases hb : b' = b
        · subst hb
          obtain ⟨y1, y2⟩ := y
          simp only at hy1 hy2
          subst hy1
          have ho' : y2 = rows ∧ Col.ofBlock ys b' = [] := by
            simpa [Col.ofBlock] using ho
          obtain ⟨rfl, hn⟩ := ho'
          refine ⟨[], d', ops, rfl, ?_, hy2⟩
          intro d hd
          have hm := mem_colWrites.mpr hd
          obtain ⟨k, hk, ek⟩ := List.mem_iff_getElem.mp hm
          have hk' : k < ys.length := by rw [← ht.length_eq]; exact hk
          have hz := (List.forall₂_iff_get.mp ht).2 k hk hk'
          have : ys[k] ∈ ys := List.getElem_mem hk'
          have hyk : ys[k].1 = b' := by
            have := hz.1
            simp only [List.get_eq_getElem] at this
            rw [← this, ek]
          have : ys[k].2 ∈ Col.ofBlock ys b' := by
            unfold Col.ofBlock
            exact List.mem_map.mpr ⟨ys[k], List.mem_filter.mpr ⟨this, by simp [hyk]⟩, rfl⟩
          rw [hn] at this
          simp at this
        · have ho' : Col.ofBlock ys b = [rows] := by
            have : (y.1 == b) = false := by simp only [beq_eq_false_iff_ne]; rw [← hy1]; exact hb
            simpa [Col.ofBlock, this] using ho
          obtain ⟨before, d, after, e1, e2, e3⟩ := ih ht ho'
          exact ⟨_ :: before, d, after, by rw [e1]; rfl, e2, e3⟩
    · have ec : colWrites i (op :: ops) = colWrites i ops := by
        unfold colWrites
        rw [List.filterMap_cons]
        cases op with
        | write b' j d' =>
          have hj : j ≠ i := by rintro rfl; exact hop ⟨b', d', rfl⟩
          simp only [hj, if_false]
        | read => rfl
        | header => rfl
      rw [ec] at h
      obtain ⟨before, d, after, e1, e2, e3⟩ := ih h ho
      exact ⟨op :: before, d, after, by rw [e1]; rfl, e2, e3⟩

/-! ## Reading -/

/-- Loading a block whose bytes are known. -/
theorem loadBlock_spec {α : Type} {K : Codec α} {i b n : Nat} {s : Reader α} {c : Column}
    (hc : s.man.columns[i]? = some c) (hb : b < s.man.nBlocks) (hbits : Supported c.bits)
    {V : Buf Fl → Buf Nat → Nat → Nat → α} {metaB : Buf Fl} {sym : Buf Nat} {d : Mem 8}
    (hr : Reads (K.dec b) (c.metaCount s.man.rowsPerBlock c.antennaCount) (c.symCount s.man.rowsPerBlock)
      (2 ^ c.bits) s.man.rowsPerBlock n V)
    (hd : BlockHolds c.bits (c.metaCount s.man.rowsPerBlock c.antennaCount) (c.symCount s.man.rowsPerBlock)
      metaB sym d)
    (hsize : c.blockSize = blockSize (c.metaCount s.man.rowsPerBlock c.antennaCount)
      (c.symCount s.man.rowsPerBlock) c.bits)
    (hread : ∀ packed : Mem 8, ∃ packed', readCompressedData b c packed c.blockSize s.man =
      (s.man, packed', true) ∧ packed'.len = packed.len ∧ ∀ k, k < c.blockSize → packed'.get k = d.get k)
    (packed : Mem 8) (unpacked : Buf Nat) (hp : packed.len = c.blockSize)
    (hu : unpacked.len = c.symCount s.man.rowsPerBlock) :
    ∃ rows, loadBlock K i b packed unpacked s = .ok ⟨s.man, b, rows⟩ ∧ rows.len = s.man.rowsPerBlock ∧
      ∀ r, r < s.man.rowsPerBlock → (rows.get r).vis.len = n ∧
        ∀ j, j < n → (rows.get r).vis.get j = V metaB sym r j := by
  obtain ⟨packed', e, l, g⟩ := hread packed
  have hd' : BlockHolds c.bits (c.metaCount s.man.rowsPerBlock c.antennaCount)
      (c.symCount s.man.rowsPerBlock) metaB sym packed' :=
    hd.congr hbits (by rw [l, hp, hsize, hd.size]) (fun k hk => g k (by rw [hsize]; exact hk))
  obtain ⟨rows, e2, l2, g2⟩ := readBlock_spec hr hd'.metaLen hd'.symLen hd'.below hd'.size hd'.floats
    hd'.symbols ⟨0, 0, ⟨0, fun _ => K.zero⟩⟩ unpacked hu s.buffer
  refine ⟨rows, ?_, l2, g2⟩
  unfold loadBlock
  rw [hc]
  simp only
  rw [if_pos hb, e]
  simp only
  rw [e2]

/-- The row is in the time block buffer. -/
structure Loaded {α : Type} (n : Nat) (U : Nat → Nat → α) (s : Reader α) : Prop where
  rows : s.buffer.len = s.man.rowsPerBlock
  vis : ∀ r, r < s.man.rowsPerBlock → (s.buffer.get r).vis.len = n ∧
    ∀ j, j < n → (s.buffer.get r).vis.get j = U (s.current * s.man.rowsPerBlock + r) j

theorem getData_spec {α : Type} {n r : Nat} {b : Block α} (hr : r < b.len) (hv : (b.get r).vis.len = n)
    (dest : Buf α) (hd : dest.len = n) :
    ∃ dest', getData b r dest = some dest' ∧ dest'.len = n ∧ ∀ j, j < n → dest'.get j = (b.get r).vis.get j := by
  obtain ⟨d, e, l, g, _⟩ := copy_loop (b.get r).vis.len (b.get r).vis dest (Nat.le_refl _) (by omega)
  refine ⟨d, ?_, by rw [l, hd], fun j hj => g j (by omega)⟩
  unfold getData
  rw [Buf.rd_some hr, Option.bind_some]
  exact e

/-- Reading rows of stored blocks, in any order and any number of times, gives the values of the blocks;
the manager does not change. -/
theorem getAll_spec {α : Type} {K : Codec α} {i n q : Nat} {m : Man} {U : Nat → Nat → α} {size nSym : Nat}
    (hr0 : 0 < m.rowsPerBlock) (hq : q ≤ m.nBlocks) (hq2 : q * m.rowsPerBlock ≤ Col.noBlock)
    (hload : ∀ b, b < q → ∀ (packed : Mem 8) (unpacked : Buf Nat) (cur : Nat) (buf : Block α),
      packed.len = size → unpacked.len = nSym →
      ∃ rows, loadBlock K i b packed unpacked ⟨m, cur, buf⟩ = .ok ⟨m, b, rows⟩ ∧ rows.len = m.rowsPerBlock ∧
        ∀ r, r < m.rowsPerBlock → (rows.get r).vis.len = n ∧
          ∀ j, j < n → (rows.get r).vis.get j = U (b * m.rowsPerBlock + r) j)
    (calls : List (Call α)) (hcalls : ∀ x ∈ calls, x.row < q * m.rowsPerBlock ∧ x.dest.len = n ∧
      x.packed.len = size ∧ x.unpacked.len = nSym) (s : Reader α) (hm : s.man = m)
    (hs : s.current = Col.noBlock ∨ Loaded n U s) :
    ∃ outs, getAll K i calls s = .ok outs ∧
      List.Forall₂ (fun x out => out.len = n ∧ ∀ j, j < n → out.get j = U x.row j) calls outs := by
  induction calls generalizing s with
  | nil => exact ⟨[], rfl, .nil⟩
  | cons x xs ih =>
    obtain ⟨h1, h2, h3, h4⟩ := hcalls x (by simp)
    have hb : x.row / m.rowsPerBlock < q := (Nat.div_lt_iff_lt_mul hr0).mpr h1
    have hrow : x.row / m.rowsPerBlock * m.rowsPerBlock + x.row % m.rowsPerBlock = x.row := by
      rw [Nat.mul_comm]; exact Nat.div_add_mod _ _
    have hmod : x.row % m.rowsPerBlock < m.rowsPerBlock := Nat.mod_lt _ hr0
    obtain ⟨man, cur, buf⟩ := s
    simp only at hm
    subst hm
    have key : ∃ s', (if cur ≠ getBlockIndex man x.row then
          loadBlock K i (getBlockIndex man x.row) x.packed x.unpacked ⟨man, cur, buf⟩ else .ok ⟨man, cur, buf⟩) = .ok s' ∧
        s'.man = man ∧ s'.current = x.row / man.rowsPerBlock ∧ Loaded n U s' := by
      by_cases hc : cur = getBlockIndex man x.row
      · rw [if_neg (by simpa using hc)]
        refine ⟨_, rfl, rfl, hc, ?_⟩
        rcases hs with hs | hs
        · exfalso
          simp only at hs
          have : x.row / man.rowsPerBlock ≤ x.row := Nat.div_le_self _ _
          unfold getBlockIndex at hc
          omega
        · exact hs
      · rw [if_pos hc]
        obtain ⟨rows, e, l, g⟩ := hload _ hb x.packed x.unpacked cur buf h3 h4
        exact ⟨_, e, rfl, rfl, l, g⟩
    obtain ⟨s', e, m1, c1, hL⟩ := key
    obtain ⟨v1, v2⟩ := hL.vis (x.row % man.rowsPerBlock) (by rw [m1]; exact hmod)
    obtain ⟨out, e2, l2, g2⟩ := getData_spec (r := x.row % man.rowsPerBlock) (by rw [hL.rows, m1]; exact hmod)
      v1 x.dest h2
    obtain ⟨outs, e3, f3⟩ := ih (fun y hy => hcalls y (by simp [hy])) s' m1 (Or.inr hL)
    refine ⟨out :: outs, ?_, .cons ⟨l2, fun j hj => ?_⟩ f3⟩
    · unfold getAll getValues
      have o : areOffsetsInitialized man = true := by
        simp only [areOffsetsInitialized, bne_iff_ne, ne_eq]
        omega
      simp only [o, Bool.not_true, Bool.false_eq_true, if_false]
      rw [if_neg (by unfold getBlockIndex; omega), e]
      simp only [getRowWithinBlock]
      rw [m1, e2]
      simp only
      rw [e3]
    · rw [g2 j hj, v2 j hj, c1, m1, hrow]

/-! ## Composition -/

theorem Holds.withRows {m : Man} {S : Store} (h : StMan.Holds m S) (n : Nat) :
    StMan.Holds { m with nRow := n } S :=
  ⟨h.ok, h.layout, h.positive, h.small, h.headerSize, h.header, h.written, h.hole, h.inside, h.last, h.ends⟩

/-- A column of a new table, as configured by `prepare` and `initializeRowsPerBlock`. -/
theorem newTable_column {rows ants : Nat} {mt : Man} (h : NewTable rows ants mt) {nRow i : Nat}
    {c : Column} (hc : (newTable nRow rows ants mt).columns[i]? = some c) :
    ∃ c0, mt.columns[i]? = some c0 ∧ c.isData = c0.isData ∧ c.nPol = c0.nPol ∧
      c.nCh = c0.nCh ∧ c.bits = (if c0.isData then mt.dataBitCount else mt.weightBitCount) ∧
      c.norm = normOf mt.normalization ∧ c.antennaCount = ants ∧
      c.blockSize = blockSize (c.metaCount rows ants) (c.symCount rows) c.bits := by
  obtain ⟨_, _, f3, _⟩ := newTable_fields (nRow := nRow) h
  obtain ⟨_, _, h3, h4⟩ := layout_spec h.rowCount.2 h.antCount (configured mt mt.columns) 0
    (by have := h.total; omega)
  rw [f3] at hc
  obtain ⟨hi2, rfl⟩ := List.getElem?_eq_some_iff.mp hc
  have hi1 : i < (configured mt mt.columns).length := by rw [← h3]; exact hi2
  have hi : i < mt.columns.length := by simpa [configured] using hi1
  have e := h4 i hi1 hi2
  refine ⟨_, List.getElem?_eq_getElem hi, ?_⟩
  have ec : (configured mt mt.columns)[i] = { mt.columns[i] with
      bits := if mt.columns[i].isData then mt.dataBitCount else mt.weightBitCount
      norm := normOf mt.normalization } := by simp [configured]
  rw [ec] at e
  rw [e]
  exact ⟨rfl, rfl, rfl, rfl, rfl, rfl, rfl⟩

/-- The rows of block `b` of the table as the column hands them to the encoder. -/
def TableBlock {α : Type} (rows : Nat) (v : Nat → DataRow α) (b : Nat) (data : Block α) : Prop :=
  data.len = rows ∧ ∀ j, j < rows → data.get j = v (b * rows + j)

/-- The calls are reads of existing rows with buffers of the right sizes. -/
def GoodCalls {α : Type} (c : Column) (rows R n : Nat) (calls : List (Call α)) : Prop :=
  ∀ x ∈ calls, x.row < R ∧ x.dest.len = n ∧ x.packed.len = c.blockSize ∧ x.unpacked.len = c.symCount rows

/-- A client wrote the rows `0`, …, `R - 1` of a new table once each, in order, and closed the column. In between
the encoder threads ran in any schedule. Blocks are the groups of `rows` rows with the same time, field and data
description (the test of threadeddyscocolumn.cc:199-200), of which the last may have fewer rows; the column finds their
length itself (`rows0 = 0`), which needs two blocks, or it was found by another column. -/
structure RunOf {V κ : Type} (p : Col.Params V κ) (rows R : Nat) (v : Nat → V)
    (s : Col.State V κ p.threads) : Prop where
  threads : 0 < p.threads
  maxCache : 1 ≤ p.maxCache
  small : R ≤ Col.noBlock
  same : ∀ r, 0 < r → r < rows → p.differs (p.key r) (p.key 0) = false
  diff : rows < R → p.differs (p.key rows) (p.key 0) = true
  reach : ∃ rows0 nBlocks k todo, (rows0 = rows ∨ rows0 = 0 ∧ rows < R) ∧
    Col.Whole rows v R 0 todo ∧
    Col.Reachable p (Col.initial p k rows0 (fun _ => none) nBlocks todo) s
  closed : s.client = .closed

/-- Such a client wrote at least `q` complete blocks. -/
structure Run {V κ : Type} (p : Col.Params V κ) (rows q : Nat) (v : Nat → V)
    (s : Col.State V κ p.threads) : Prop where
  blocks : 0 < q
  wrote : ∃ R, q * rows ≤ R ∧ RunOf p rows R v s

theorem Run.small {V κ : Type} {p : Col.Params V κ} {rows q : Nat} {v : Nat → V} {s : Col.State V κ p.threads}
    (h : Run p rows q v s) : q * rows ≤ Col.noBlock := by
  obtain ⟨R, h1, h2⟩ := h.wrote
  have := h2.small
  omega

/-- Every block was written once: its rows, and possibly others after them if it is incomplete. -/
theorem RunOf.written {V κ : Type} {p : Col.Params V κ} {rows R : Nat} {v : Nat → V}
    {s : Col.State V κ p.threads} (h : RunOf p rows R v s) (hr0 : 0 < rows) {b : Nat} (hb : b * rows < R) :
    ∃ rws : Col.Rows V, Col.ofBlock s.writes b = [rws] ∧ Col.Filled rows v b (Col.rowsIn rows R b) rws := by
  obtain ⟨rows0, nBlocks, k, todo, hrows, hw, hreach⟩ := h.reach
  obtain ⟨_, _, _, hall⟩ := Col.whole_column h.threads h.maxCache hr0 (by omega) h.small
    h.same h.diff hrows hw hreach
  obtain ⟨rws, _, ho, hfill⟩ := (hall h.closed b).1 hb
  exact ⟨rws, ho, hfill⟩

theorem Run.written {V κ : Type} {p : Col.Params V κ} {rows q : Nat} {v : Nat → V}
    {s : Col.State V κ p.threads} (h : Run p rows q v s) (hr0 : 0 < rows) {b : Nat} (hb : b < q) :
    ∃ rws : Col.Rows V, Col.ofBlock s.writes b = [rws] ∧ rws.len = rows ∧
      ∀ j, j < rows → rws.get j = some (v (b * rows + j)) := by
  obtain ⟨R, hR, hrun⟩ := h.wrote
  have hbR : (b + 1) * rows ≤ q * rows := Nat.mul_le_mul_right _ hb
  rw [Nat.add_mul, Nat.one_mul] at hbR
  obtain ⟨rws, ho, hfill⟩ := hrun.written hr0 (b := b) (by omega)
  have hin : Col.rowsIn rows R b = rows := by
    unfold Col.rowsIn
    omega
  rw [hin] at hfill
  exact ⟨rws, ho, le_antisymm hfill.len hfill.count, hfill.get⟩

/-- The whole table is written by one client with any schedule of the encoder threads, the file is closed,
opened again and its columns are prepared. Then rows can be read in any order, and each has the values of
the metadata and symbols that the encoder gave for its block. -/
theorem end_to_end {α κ : Type} {rows ants : Nat} {mt : Man} (h : NewTable rows ants mt) (nRow nRow' : Nat)
    (ops : List BlockOp) (m0 : Man) (hs : List.Forall₂ SameShape m0.columns mt.columns)
    (hlast : let m' := ops.foldl blockStep (newTable nRow rows ants mt)
      m'.nBlocks = 0 ∨ ∃ d, .write (m'.nBlocks - 1) (mt.columns.length - 1) d ∈ ops)
    {i : Nat} {c : Column} (hc : (newTable nRow rows ants mt).columns[i]? = some c) (hb : Supported c.bits)
    {K : Codec α} {p : Col.Params (DataRow α) κ} {q : Nat} {v : Nat → DataRow α}
    {s : Col.State (DataRow α) κ p.threads} (hrun : Run p rows q v s)
    (himp : Implements K c rows i ops s.writes)
    {n : Nat} {V : Nat → Buf Fl → Buf Nat → Nat → Nat → α} {Good : Nat → Buf Fl → Buf Nat → Prop}
    (henc : ∀ b data, b < q → TableBlock rows v b data → ∀ dith fuel,
      (∀ packed unpacked d, packed.len = c.blockSize → unpacked.len = c.symCount rows →
        writeBlock (K.enc dith fuel data) c.bits (c.metaCount rows c.antennaCount) (c.symCount rows)
          packed unpacked ≠ .ok d) ∨
      ∃ metaB sym, Writes (K.enc dith fuel data) (c.metaCount rows c.antennaCount) (c.symCount rows)
        (2 ^ c.bits) metaB sym ∧ Good b metaB sym)
    (hdec : ∀ b, b < q → Reads (K.dec b) (c.metaCount rows c.antennaCount) (c.symCount rows) (2 ^ c.bits)
      rows n (V b)) :
    ∃ r man, openFile nRow' m0 (ops.foldl blockStep (newTable nRow rows ants mt)).file = .ok r ∧
      prepare r = (man, true) ∧
      ∃ (metaB : Nat → Buf Fl) (sym : Nat → Buf Nat), (∀ b, b < q → Good b (metaB b) (sym b)) ∧
      ∀ (calls : List (Call α)) (buf : Block α), GoodCalls c rows (q * rows) n calls →
        ∃ outs, getAll K i calls ⟨man, Col.noBlock, buf⟩ = .ok outs ∧
          List.Forall₂ (fun x out => out.len = n ∧ ∀ j, j < n → out.get j =
            V (x.row / rows) (metaB (x.row / rows)) (sym (x.row / rows)) (x.row % rows) j) calls outs := by
  have hr0 := h.rowCount.1
  have hq := hrun.blocks
  have hsize : c.blockSize = blockSize (c.metaCount rows c.antennaCount) (c.symCount rows) c.bits := by
    obtain ⟨_, _, _, _, _, _, _, e1, e2⟩ := newTable_column h hc
    rw [e2, e1]
  have hci : i < (newTable nRow rows ants mt).columns.length := (List.getElem?_eq_some_iff.mp hc).1
  have hce : (newTable nRow rows ants mt).columns[i] = c := (List.getElem?_eq_some_iff.mp hc).2
  have hne : mt.columns ≠ [] := by
    intro he
    obtain ⟨_, _, f3, _⟩ := newTable_fields (nRow := nRow) h
    rw [f3] at hci
    simp [he, configured, layoutColumns] at hci
  obtain ⟨r, e1, e2⟩ := reopen_prepare h nRow ops nRow' m0 hs hne hlast
  refine ⟨r, _, e1, e2, ?_⟩
  have hF : Fresh (newTable nRow rows ants mt) := newTable_fresh h
  obtain ⟨hh, hcol⟩ := run_holds hF.holds ops
  obtain ⟨a1, _⟩ := headerBytes_run hF ops
  obtain ⟨f1, _⟩ := newTable_fields (nRow := nRow) h
  generalize hm' : ops.foldl blockStep (newTable nRow rows ants mt) = m' at *
  have hrpb : m'.rowsPerBlock = rows := a1.trans f1
  have hci' : i < m'.columns.length := by rw [hcol]; exact hci
  have hce' : m'.columns[i] = c := by simp only [hcol]; exact hce
  -- what is in the file
  have hfile : ∀ b, ∃ metaB sym, b < q → b < m'.nBlocks ∧ Good b metaB sym ∧
      ∃ d, BlockHolds c.bits (c.metaCount rows c.antennaCount) (c.symCount rows) metaB sym d ∧
        ∀ packed : Mem 8, ∃ packed', readCompressedData b c packed c.blockSize { m' with nRow := nRow' } =
          ({ m' with nRow := nRow' }, packed', true) ∧ packed'.len = packed.len ∧
          ∀ k, k < c.blockSize → packed'.get k = d.get k := by
    intro b
    by_cases hbq : b < q
    · obtain ⟨rws, ho, hl, hget⟩ := hrun.written hr0 hbq
      obtain ⟨before, d, after, eops, hnot, dith, fuel, packed, unpacked, hp, hu, ew⟩ := single_write himp ho
      have htb : TableBlock rows v b (toBlock K.zero rws) := by
        refine ⟨hl, fun j hj => ?_⟩
        simp only [toBlock]
        rw [hget j hj, Option.getD_some]
      rcases henc b _ hbq htb dith fuel with hno | ⟨metaB, sym, hwr, hg⟩
      · exact absurd ew (hno packed unpacked d hp hu)
      · refine ⟨metaB, sym, fun _ => ?_⟩
        have hS : ops.foldl (storeStep (newTable nRow rows ants mt).columns.length) (fun _ _ => none) b i =
            some d := by
          rw [eops, List.foldl_append, List.foldl_cons, store_unwritten _ _ _ _ _ hnot]
          simp only [storeStep]
          rw [if_pos ⟨trivial, trivial, hci⟩]
        obtain ⟨k1, _⟩ := hh.written b i d hci' hS
        refine ⟨k1, hg, d, holds_of_writes hb hwr (by rw [hp, hsize]) hu ew, fun packed => ?_⟩
        obtain ⟨dest, g1, g2, g3, _⟩ := read_spec (Holds.withRows hh nRow') hci' k1 packed
        rw [hce'] at g1 g3
        exact ⟨dest, g1, g2, g3 d hS⟩
    · exact ⟨⟨0, fun _ => .nan⟩, ⟨0, fun _ => 0⟩, fun h => absurd h hbq⟩
  choose metaB sym hfile using hfile
  refine ⟨metaB, sym, fun b hbq => (hfile b hbq).2.1, ?_⟩
  intro calls buf hcalls
  obtain ⟨outs, g1, g2⟩ := getAll_spec (K := K) (i := i) (n := n) (q := q) (m := { m' with nRow := nRow' })
    (U := fun row j => V (row / rows) (metaB (row / rows)) (sym (row / rows)) (row % rows) j)
    (size := c.blockSize) (nSym := c.symCount rows) (by simp only; omega)
    (by
      have := (hfile (q - 1) (by omega)).1
      simp only
      omega) (by simp only [hrpb]; exact hrun.small)
    (by
      intro b hbq packed unpacked cur buf hp hu
      obtain ⟨k1, _, d, k2, k3⟩ := hfile b hbq
      obtain ⟨rws, x1, x2, x3⟩ := loadBlock_spec (K := K) (i := i) (b := b) (n := n) (V := V b) (metaB := metaB b)
        (sym := sym b) (d := d) (c := c) (s := ⟨{ m' with nRow := nRow' }, cur, buf⟩)
        (by simp only; rw [List.getElem?_eq_getElem hci', hce']) k1 hb (by simp only [hrpb]; exact hdec b hbq)
        (by simp only [hrpb]; exact k2) (by simp only [hrpb]; exact hsize) k3 packed unpacked hp
        (by simp only [hrpb]; exact hu)
      refine ⟨rws, x1, x2, fun r hr => ⟨(x3 r hr).1, fun j hj => ?_⟩⟩
      have hr' : r < rows := by rw [← hrpb]; exact hr
      rw [(x3 r hr).2 j hj]
      simp only [hrpb]
      rw [flat_div hr', flat_mod hr'])
    calls (by simp only [hrpb]; exact hcalls) ⟨{ m' with nRow := nRow' }, Col.noBlock, buf⟩ rfl (Or.inl rfl)
  exact ⟨outs, g1, g2⟩

/-! ## Weights -/

/-- The table holds these weights: row, channel, polarisation. -/
def WeightRows (nPol nCh R : Nat) (v : Nat → DataRow Fl) (W : Nat → Nat → Nat → ℚ) : Prop :=
  ∀ row, row < R → (v row).vis.len = nCh * nPol ∧
    ∀ c p, c < nCh → p < nPol → (v row).vis.get (c * nPol + p) = .fin (W row c p)

/-- **C61** for weights. Every row can be read back, in any order; each weight is replaced by the smallest
of the polarisations, with an error of half a quantisation step of its block plus the rounding of `float`. -/
theorem weights_end_to_end {κ : Type} {rows ants : Nat} {mt : Man} (h : NewTable rows ants mt)
    (nRow nRow' : Nat) (ops : List BlockOp) (m0 : Man) (hs : List.Forall₂ SameShape m0.columns mt.columns)
    (hlast : let m' := ops.foldl blockStep (newTable nRow rows ants mt)
      m'.nBlocks = 0 ∨ ∃ d, .write (m'.nBlocks - 1) (mt.columns.length - 1) d ∈ ops)
    {i : Nat} {c : Column} (hc : (newTable nRow rows ants mt).columns[i]? = some c)
    (hw : c.isData = false) (hb : Supported c.bits) (hp : 1 ≤ c.nPol) (hch : 0 < c.nCh)
    {p : Col.Params (DataRow Fl) κ} {q : Nat} {v : Nat → DataRow Fl}
    {s : Col.State (DataRow Fl) κ p.threads} (hrun : Run p rows q v s)
    (himp : Implements (weightCodec c) c rows i ops s.writes)
    {W : Nat → Nat → Nat → ℚ} (hW : WeightRows c.nPol c.nCh (q * rows) v W)
    (hF : Weight.FloatWeights (q * rows) c.nCh c.nPol W) {mn : Nat → Nat → ℚ}
    (hmn : ∀ row ch, row < q * rows → ch < c.nCh → Weight.IsMin c.nPol (W row ch) (mn row ch)) :
    ∃ r man, openFile nRow' m0 (ops.foldl blockStep (newTable nRow rows ants mt)).file = .ok r ∧
      prepare r = (man, true) ∧
      ∃ M : Nat → ℚ, (∀ b, b < q → Weight.IsBlockMax rows c.nCh (fun j => mn (b * rows + j)) (M b)) ∧
      ∀ (calls : List (Call Fl)) (buf : Block Fl), GoodCalls c rows (q * rows) (c.nCh * c.nPol) calls →
        ∃ outs, getAll (weightCodec c) i calls ⟨man, Col.noBlock, buf⟩ = .ok outs ∧
          List.Forall₂ (fun x out => out.len = c.nCh * c.nPol ∧ ∀ ch po, ch < c.nCh → po < c.nPol →
            ∃ y, out.get (ch * c.nPol + po) = .fin y ∧ 0 ≤ y ∧ y ≤ M (x.row / rows) ∧
              |y - mn x.row ch| ≤ M (x.row / rows) / (2 * ((2 : ℚ) ^ c.bits - 1)) +
                M (x.row / rows) * 2 ^ (-22 : ℤ) + 2 ^ (-149 : ℤ) ∧
              (mn x.row ch = M (x.row / rows) → y = mn x.row ch) ∧ (mn x.row ch = 0 → y = 0)) calls outs := by
  have hr0 := h.rowCount.1
  have hmeta : c.metaCount rows c.antennaCount = Weight.metaDataFloatCount := by simp [Column.metaCount, hw]
  have hsym : c.symCount rows = Weight.symbolCount rows c.nCh := by simp [Column.symCount, hw]
  have hin : ∀ {b j}, b < q → j < rows → b * rows + j < q * rows := fun hb hj => flat_lt hb hj
  obtain ⟨r, man, e1, e2, metaB, sym, hgood, hread⟩ := end_to_end h nRow nRow' ops m0 hs hlast hc hb hrun himp
    (n := c.nCh * c.nPol) (V := fun _ metaB sym r i => Weight.decodeSample Fl.r32 Fl.r64 (2 ^ c.bits)
      (metaB.get 0) (sym.get (r * c.nCh + i / c.nPol)))
    (Good := fun b metaB sym => ∃ M, Weight.IsBlockMax rows c.nCh (fun j => mn (b * rows + j)) M ∧
      metaB.get 0 = .fin M ∧ ∀ j ch, j < rows → ch < c.nCh →
        Weight.encodeSample Fl.r32 Fl.r64 (2 ^ c.bits) (.fin M) (.fin (mn (b * rows + j) ch)) =
          some (sym.get (j * c.nCh + ch)))
    (by
      intro b data hbq htb dith fuel
      right
      obtain ⟨M, sym', hM, hwr, henc⟩ := weightWrites (nCh := c.nCh) hb hp (rows := data)
        (W := fun j => W (b * rows + j)) (m := fun j => mn (b * rows + j))
        (by
          intro j hj
          rw [htb.1] at hj
          rw [htb.2 j hj]
          exact hW _ (hin hbq hj))
        (by
          intro j ch po hj hch hpo
          rw [htb.1] at hj
          exact hF _ ch po (hin hbq hj) hch hpo)
        (by
          intro j ch hj hch
          rw [htb.1] at hj
          exact hmn _ ch (hin hbq hj) hch)
      rw [htb.1] at hM hwr henc
      rw [hmeta, hsym]
      exact ⟨_, sym', hwr, M, hM, rfl, henc⟩)
    (by
      intro b _
      rw [hmeta, hsym]
      exact weightReads hch)
  have hM : ∀ b, ∃ M, b < q → Weight.IsBlockMax rows c.nCh (fun j => mn (b * rows + j)) M ∧
      (metaB b).get 0 = .fin M ∧ ∀ j ch, j < rows → ch < c.nCh →
        Weight.encodeSample Fl.r32 Fl.r64 (2 ^ c.bits) (.fin M) (.fin (mn (b * rows + j) ch)) =
          some ((sym b).get (j * c.nCh + ch)) := by
    intro b
    by_cases hbq : b < q
    · obtain ⟨M, hM⟩ := hgood b hbq
      exact ⟨M, fun _ => hM⟩
    · exact ⟨0, fun h => absurd h hbq⟩
  choose M hM using hM
  refine ⟨r, man, e1, e2, M, fun b hbq => (hM b hbq).1, ?_⟩
  intro calls buf hcalls
  obtain ⟨outs, g1, g2⟩ := hread calls buf hcalls
  refine ⟨outs, g1, ?_⟩
  have hb2 : 2 ≤ 2 ^ c.bits ∧ 2 ^ c.bits ≤ 2 ^ 16 := by
    unfold Supported at hb
    refine ⟨?_, Nat.pow_le_pow_right (by decide) (by omega)⟩
    have : 2 ^ 1 ≤ 2 ^ c.bits := Nat.pow_le_pow_right (by decide) (by omega)
    simpa using this
  rw [List.forall₂_iff_get] at g2 ⊢
  refine ⟨g2.1, fun k hk hk' => ?_⟩
  obtain ⟨l, g⟩ := g2.2 k hk hk'
  refine ⟨l, fun ch po hch hpo => ?_⟩
  obtain ⟨hrow, _⟩ := hcalls _ (List.get_mem calls ⟨k, hk⟩)
  generalize calls.get ⟨k, hk⟩ = x at *
  have hbq : x.row / rows < q := (Nat.div_lt_iff_lt_mul hr0).mpr hrow
  have hmod : x.row % rows < rows := Nat.mod_lt _ hr0
  have hxr : x.row / rows * rows + x.row % rows = x.row := by rw [Nat.mul_comm]; exact Nat.div_add_mod _ _
  obtain ⟨k1, k2, k3⟩ := hM _ hbq
  obtain ⟨m1, m2, m3, m4⟩ := Weight.float_min_max (nPol := c.nPol) (W := fun j => W (x.row / rows * rows + j))
    (fun j ch po hj hch hpo => hF _ ch po (hin hbq hj) hch hpo)
    (fun j ch hj hch => hmn _ ch (hin hbq hj) hch) k1
  obtain ⟨n1, n2, n3⟩ := m1 (x.row % rows) ch hmod hch
  obtain ⟨sy, y, y1, _, y3, y4⟩ := Weight.sample_core (2 ^ c.bits) hb2.1 hb2.2 n1 n2 n3 m2 m3 m4
  rw [k3 _ _ hmod hch, Option.some.injEq] at y1
  simp only [hxr] at y4
  refine ⟨y, ?_, ?_⟩
  · rw [g _ (flat_lt hch hpo), k2, flat_div hpo, y1, y3]
  · have e : ((2 ^ c.bits : Nat) : ℚ) = (2 : ℚ) ^ c.bits := by push_cast; rfl
    rw [e] at y4
    exact y4

/-! ## Data -/

/-- The table holds these visibilities, and the rows were put with the antennas of the antenna columns. -/
structure DataRows (n R : Nat) (v : Nat → DataRow Cx) (antOf : Nat → Nat × Nat) (D : Nat → Nat → Cx) : Prop where
  len : ∀ row, row < R → (v row).vis.len = n
  ant : ∀ row, row < R → ((v row).antenna1, (v row).antenna2) = antOf row
  vis : ∀ row j, row < R → j < n → (v row).vis.get j = D row j

theorem DataRows.block {n rows q : Nat} {v : Nat → DataRow Cx} {antOf : Nat → Nat × Nat} {D : Nat → Nat → Cx}
    (h : DataRows n (q * rows) v antOf D) {b : Nat} (hb : b < q) {data : Block Cx}
    (ht : TableBlock rows v b data) :
    Dysco.Holds rows n (fun r => antOf (b * rows + r)) (fun r => D (b * rows + r)) data := by
  refine ⟨ht.1, fun r hr => ?_, fun r hr => ?_, fun r j hr hj => ?_⟩
  · rw [ht.2 r hr]; exact h.len _ (flat_lt hb hr)
  · rw [ht.2 r hr]; exact h.ant _ (flat_lt hb hr)
  · rw [ht.2 r hr]; exact h.vis _ j (flat_lt hb hr) hj

/-- **C61** for data, with every normalisation. Every row can be read back, in any order; it has the values of
the metadata and symbols that the encoder computed for the block of the row from the rows of the table. -/
theorem data_end_to_end {κ : Type} {rows ants : Nat} {mt : Man} (h : NewTable rows ants mt)
    (nRow nRow' : Nat) (ops : List BlockOp) (m0 : Man) (hs : List.Forall₂ SameShape m0.columns mt.columns)
    (hlast : let m' := ops.foldl blockStep (newTable nRow rows ants mt)
      m'.nBlocks = 0 ∨ ∃ d, .write (m'.nBlocks - 1) (mt.columns.length - 1) d ∈ ops)
    {i : Nat} {c : Column} (hc : (newTable nRow rows ants mt).columns[i]? = some c)
    (hw : c.isData = true) (hb : Supported c.bits)
    {sq : Fl → Fl} {e : Encoder} {bd l : Nat → ℚ} {L : ℚ} (hT : Table e bd l L) (he : e.quantCount = 2 ^ c.bits)
    {antOf : Nat → Nat × Nat} {p : Col.Params (DataRow Cx) κ} {q : Nat} {v : Nat → DataRow Cx}
    {s : Col.State (DataRow Cx) κ p.threads} (hrun : Run p rows q v s)
    (himp : Implements (dataCodec sq e antOf rows c) c rows i ops s.writes)
    {D : Nat → Nat → Cx} (hD : DataRows (c.nPol * c.nCh) (q * rows) v antOf D)
    (hA : c.norm = .af → 0 < c.nCh ∧ AF.AntennasBelow (q * rows) ants antOf) :
    ∃ r man, openFile nRow' m0 (ops.foldl blockStep (newTable nRow rows ants mt)).file = .ok r ∧
      prepare r = (man, true) ∧
      ∃ (metaB : Nat → Buf Fl) (sym : Nat → Buf Nat),
      (∀ b, b < q → ∃ dith fuel data, TableBlock rows v b data ∧
        Writes (encData c.norm sq e c.nPol c.nCh ants dith fuel data)
          (dataMetaCount c.norm rows c.nPol c.nCh ants) (symbolCount rows c.nPol c.nCh) (2 ^ c.bits)
          (metaB b) (sym b)) ∧
      ∀ (calls : List (Call Cx)) (buf : Block Cx), GoodCalls c rows (q * rows) (c.nPol * c.nCh) calls →
        ∃ outs, getAll (dataCodec sq e antOf rows c) i calls ⟨man, Col.noBlock, buf⟩ = .ok outs ∧
          List.Forall₂ (fun x out => out.len = c.nPol * c.nCh ∧ ∀ j, j < c.nPol * c.nCh → out.get j =
            valueOf c.norm e c.nPol c.nCh ants (fun r => antOf (x.row / rows * rows + r)) (metaB (x.row / rows))
              (sym (x.row / rows)) (x.row % rows) j) calls outs := by
  have hr0 := h.rowCount.1
  obtain ⟨_, _, _, _, _, _, _, hant, hsize⟩ := newTable_column h hc
  have hmeta : c.metaCount rows c.antennaCount = dataMetaCount c.norm rows c.nPol c.nCh ants := by
    simp [Column.metaCount, hw, hant]
  have hsym : c.symCount rows = symbolCount rows c.nPol c.nCh := by simp [Column.symCount, hw]
  have hAb : ∀ b, b < q → c.norm = .af → 0 < c.nCh ∧ AF.AntennasBelow rows ants (fun r => antOf (b * rows + r)) :=
    fun b hbq hn => ⟨(hA hn).1, fun r hr => (hA hn).2 _ (flat_lt hbq hr)⟩
  exact end_to_end h nRow nRow' ops m0 hs hlast hc hb hrun himp (n := c.nPol * c.nCh)
    (V := fun b => valueOf c.norm e c.nPol c.nCh ants (fun r => antOf (b * rows + r)))
    (Good := fun b metaB sym => ∃ dith fuel data, TableBlock rows v b data ∧
        Writes (encData c.norm sq e c.nPol c.nCh ants dith fuel data)
          (dataMetaCount c.norm rows c.nPol c.nCh ants) (symbolCount rows c.nPol c.nCh) (2 ^ c.bits) metaB sym)
    (by
      intro b data hbq htb dith fuel
      simp only [dataCodec, hant] at hmeta ⊢
      rw [hmeta, hsym]
      rcases dataWrites c.norm sq hT (hD.block hbq htb) hr0 (hAb b hbq) dith fuel with ⟨hn, h1⟩ | ⟨metaB, sym, hwr⟩
      · left
        intro packed unpacked d hp hu hok
        have hp' : 4 * dataMetaCount c.norm rows c.nPol c.nCh ants ≤ packed.len := by
          rw [hp, hsize, hmeta]
          unfold blockSize
          omega
        unfold writeBlock at hok
        rw [if_neg (by omega), h1 _ _ rfl (fun j hj => if_neg (not_lt.mpr hj)) hu] at hok
        simp at hok
      · right
        rw [he] at hwr
        exact ⟨metaB, sym, hwr, dith, fuel, data, htb, hwr⟩)
    (by
      intro b hbq
      rw [hmeta, hsym, ← he]
      simp only [dataCodec, hant]
      exact dataReads c.norm hT (fun hn => (hAb b hbq hn).2))

/-- The decoded visibilities of a row normalised block, from any metadata and symbols that the encoder
writes. -/
theorem row_values {nR nPol nCh nAnt bits : Nat} {A A' : Nat → Nat × Nat} {D : Nat → Nat → Cx} {data : Block Cx}
    {sq : Fl → Fl} {e : Encoder} {b l : Nat → ℚ} {L : ℚ} (hT : Table e b l L)
    (hLr : Fl.Repr Fl.binary32 L) (hlo : -(5 / 4 * L) ≤ l 0) {δ : ℚ}
    (hA : Accurate (encFn Fl.r32 e true) e.decode L δ)
    (h : Dysco.Holds nR (nPol * nCh) A D data)
    (hF : ∀ r i, r < nR → i < nPol * nCh → FloatVis (D r i))
    (M : Nat → ℚ) (hM : ∀ r, r < nR → IsMax (nPol * nCh) (D r) (M r))
    (hM2 : ∀ r, r < nR → M r ≤ 2 ^ (127 : ℤ) ∧ M r / L ≤ 2 ^ (127 : ℤ))
    {dith : Nat → Nat} {fuel : Nat} {metaB : Buf Fl} {sym : Buf Nat} (he : e.quantCount = 2 ^ bits)
    (hwr : Writes (encData .row sq e nPol nCh nAnt dith fuel data) (dataMetaCount .row nR nPol nCh nAnt)
      (symbolCount nR nPol nCh) (2 ^ bits) metaB sym) {r i : Nat} (hr : r < nR) (hi : i < nPol * nCh) :
    ((D r i).re.isFinite = false → (valueOf .row e nPol nCh nAnt A' metaB sym r i).re = .nan) ∧
    ((D r i).im.isFinite = false → (valueOf .row e nPol nCh nAnt A' metaB sym r i).im = .nan) ∧
    ∀ m, Counted (D r i) m → ∀ a,
      ((D r i).re = .fin a → ∃ y, (valueOf .row e nPol nCh nAnt A' metaB sym r i).re = .fin y ∧
        |y - a| ≤ Row.floatBound δ (M r) L ∧ (M r = 0 → y = 0)) ∧
      ((D r i).im = .fin a → ∃ y, (valueOf .row e nPol nCh nAnt A' metaB sym r i).im = .fin y ∧
        |y - a| ≤ Row.floatBound δ (M r) L ∧ (M r = 0 → y = 0)) := by
  have hn : symbolCount nR nPol nCh = nR * (nPol * nCh) * 2 := symbolCount_eq
  obtain ⟨m1, s1, x1, x2, x3, x4, x5⟩ := hwr.same ⟨nR, fun _ => .nan⟩ ⟨symbolCount nR nPol nCh, fun _ => 0⟩ rfl
    (fun _ _ => rfl) rfl
  obtain ⟨m2, s2, e1, l1, l2, hmeta, _, hsq, _, h8⟩ := Row.encode_spec (RF := Fl.r32)
    (RD := Fl.r64) (hT.total Fl.r32 true) (maxLevel := e.maxQuantity) (dith := dith) h ⟨nR, fun _ => .nan⟩
    (Nat.le_refl _) ⟨symbolCount nR nPol nCh, fun _ => 0⟩ (by simp only [hn]; omega)
  simp only [encData, e1, Option.map_some, Option.some.injEq, Prod.mk.injEq] at x1
  obtain ⟨rfl, rfl⟩ := x1
  have hlt := flat_lt hr hi
  have y1 : metaB.get r = _ := (x4 r hr).symm.trans (hmeta r hr)
  obtain ⟨h8a, h8b⟩ := h8 r i hr hi
  rw [x5 _ (by rw [hn]; omega)] at h8a h8b
  have q1 : sym.get ((r * (nPol * nCh) + i) * 2) < e.quantCount := by rw [he]; exact hwr.below _ (by rw [hn]; omega)
  have q2 : sym.get ((r * (nPol * nCh) + i) * 2 + 1) < e.quantCount := by
    rw [he]; exact hwr.below _ (by rw [hn]; omega)
  have hnan : ∀ f, Fl.cast Fl.r32 (Fl.mul Fl.r64 .nan f) = .nan := by intro f; cases f <;> rfl
  refine ⟨fun hf => ?_, fun hf => ?_, ?_⟩
  · simp only [valueOf]
    rw [hT.nonfinite Fl.r32 true (cast_nonfinite (mul_nonfinite hf)) _ h8a, hnan]
  · simp only [valueOf]
    rw [hT.nonfinite Fl.r32 true (cast_nonfinite (mul_nonfinite hf)) _ h8b, hnan]
  · intro m hcnt a
    have hmM := (hM r hr).2.1 i m hi hcnt
    have hL2 : L < 2 ^ (128 : ℤ) := lt_of_le_of_lt hT.le fltMax_lt
    obtain ⟨hMr, _⟩ := Row.max_float (hM r hr) (fun i hi => hF r i hr hi)
    simp only [valueOf, factorOf, y1]
    rw [maxFold_eq (hM r hr), hT.maxQuantity] at h8a h8b ⊢
    constructor
    · intro ha
      rw [ha] at h8a
      exact Row.component_float hT.pos hLr hL2 (hF r i hr hi a (Or.inl ha)).1 (le_trans (hcnt.re_le ha) hmM) hMr
        (hM2 r hr).1 (hM2 r hr).2 hA (Row.level_le hT hlo) h8a (hT.decode_some q1)
    · intro ha
      rw [ha] at h8b
      exact Row.component_float hT.pos hLr hL2 (hF r i hr hi a (Or.inr ha)).1 (le_trans (hcnt.im_le ha) hmM) hMr
        (hM2 r hr).1 (hM2 r hr).2 hA (Row.level_le hT hlo) h8b (hT.decode_some q2)

/-- **C61** for row normalised data. Every row can be read back, in any order; finite components of a
visibility that counts for the row maximum have an error of at most one distance between levels, scaled with
the row maximum, plus the rounding of `float`, and non-finite ones are NaN. -/
theorem row_end_to_end {κ : Type} {rows ants : Nat} {mt : Man} (h : NewTable rows ants mt)
    (nRow nRow' : Nat) (ops : List BlockOp) (m0 : Man) (hs : List.Forall₂ SameShape m0.columns mt.columns)
    (hlast : let m' := ops.foldl blockStep (newTable nRow rows ants mt)
      m'.nBlocks = 0 ∨ ∃ d, .write (m'.nBlocks - 1) (mt.columns.length - 1) d ∈ ops)
    {i : Nat} {c : Column} (hc : (newTable nRow rows ants mt).columns[i]? = some c)
    (hw : c.isData = true) (hnorm : c.norm = .row) (hb : Supported c.bits)
    {sq : Fl → Fl} {e : Encoder} {bd l : Nat → ℚ} {L δ : ℚ} (hT : Table e bd l L) (he : e.quantCount = 2 ^ c.bits)
    (hLr : Fl.Repr Fl.binary32 L) (hlo : -(5 / 4 * L) ≤ l 0) (hsym : l 0 + L ≤ δ) (hgap : ∀ k, k + 1 < e.n → l (k + 1) - l k ≤ δ)
    {antOf : Nat → Nat × Nat} {p : Col.Params (DataRow Cx) κ} {q : Nat} {v : Nat → DataRow Cx}
    {s : Col.State (DataRow Cx) κ p.threads} (hrun : Run p rows q v s)
    (himp : Implements (dataCodec sq e antOf rows c) c rows i ops s.writes)
    {D : Nat → Nat → Cx} (hD : DataRows (c.nPol * c.nCh) (q * rows) v antOf D)
    (hF : ∀ row j, row < q * rows → j < c.nPol * c.nCh → FloatVis (D row j))
    {M : Nat → ℚ} (hM : ∀ row, row < q * rows → IsMax (c.nPol * c.nCh) (D row) (M row))
    (hM2 : ∀ row, row < q * rows → M row ≤ 2 ^ (127 : ℤ) ∧ M row / L ≤ 2 ^ (127 : ℤ)) :
    ∃ r man, openFile nRow' m0 (ops.foldl blockStep (newTable nRow rows ants mt)).file = .ok r ∧
      prepare r = (man, true) ∧
      ∀ (calls : List (Call Cx)) (buf : Block Cx), GoodCalls c rows (q * rows) (c.nPol * c.nCh) calls →
        ∃ outs, getAll (dataCodec sq e antOf rows c) i calls ⟨man, Col.noBlock, buf⟩ = .ok outs ∧
          List.Forall₂ (fun x out => out.len = c.nPol * c.nCh ∧ ∀ j, j < c.nPol * c.nCh →
            ((D x.row j).re.isFinite = false → (out.get j).re = .nan) ∧
            ((D x.row j).im.isFinite = false → (out.get j).im = .nan) ∧
            ∀ m, Counted (D x.row j) m → ∀ a,
              ((D x.row j).re = .fin a → ∃ y, (out.get j).re = .fin y ∧
                |y - a| ≤ Row.floatBound δ (M x.row) L ∧ (M x.row = 0 → y = 0)) ∧
              ((D x.row j).im = .fin a → ∃ y, (out.get j).im = .fin y ∧
                |y - a| ≤ Row.floatBound δ (M x.row) L ∧ (M x.row = 0 → y = 0))) calls outs := by
  have hr0 := h.rowCount.1
  obtain ⟨r, man, e1, e2, metaB, sym, hgood, hread⟩ := data_end_to_end h nRow nRow' ops m0 hs hlast hc hw hb hT he
    hrun himp hD (by rw [hnorm]; intro hx; simp at hx)
  refine ⟨r, man, e1, e2, fun calls buf hcalls => ?_⟩
  obtain ⟨outs, g1, g2⟩ := hread calls buf hcalls
  refine ⟨outs, g1, ?_⟩
  rw [List.forall₂_iff_get] at g2 ⊢
  refine ⟨g2.1, fun k hk hk' => ?_⟩
  obtain ⟨l1, g⟩ := g2.2 k hk hk'
  refine ⟨l1, fun j hj => ?_⟩
  obtain ⟨hrow, _⟩ := hcalls _ (List.get_mem calls ⟨k, hk⟩)
  generalize calls.get ⟨k, hk⟩ = x at *
  have hbq : x.row / rows < q := (Nat.div_lt_iff_lt_mul hr0).mpr hrow
  have hmod : x.row % rows < rows := Nat.mod_lt _ hr0
  have hxr : x.row / rows * rows + x.row % rows = x.row := by rw [Nat.mul_comm]; exact Nat.div_add_mod _ _
  obtain ⟨dith, fuel, data, htb, hwr⟩ := hgood _ hbq
  have hn2 := hT.levels.two
  have hδ : 0 ≤ δ := by
    have h1 := hgap 0 (by omega)
    have h2 := hT.levels.asc 0 1 (by omega) (by omega)
    linarith
  rw [g j hj]
  rw [hnorm] at hwr ⊢
  have := row_values (A' := fun r => antOf (x.row / rows * rows + r)) hT hLr hlo
    (dither_accurate hT Fl.r32 δ hδ hsym hgap) (hD.block hbq htb)
    (fun r i hr hi => hF _ i (flat_lt hbq hr) hi) (fun r => M (x.row / rows * rows + r))
    (fun r hr => hM _ (flat_lt hbq hr)) (fun r hr => hM2 _ (flat_lt hbq hr)) he hwr hmod hj
  simp only [hxr] at this
  exact this

/-! ## The hypotheses can be met -/

/-- One thread, three rows per block. Not in the code. -/
def sampleParams : Col.Params (DataRow Fl) Nat where
  threads := 1
  maxCache := 2
  key := fun r => r / 3
  differs := fun a b => a != b
  dec := fun _ _ => id

/-- All weights of row `r` are `r + 1`. -/
def sampleRow (r : Nat) : DataRow Fl := ⟨0, 1, ⟨64, fun _ => .fin ((r : ℚ) + 1)⟩⟩

/-- Six rows are written. Not in the code. -/
def sampleOps : List (Col.Op (DataRow Fl)) :=
  [.put 0 (sampleRow 0), .put 1 (sampleRow 1), .put 2 (sampleRow 2), .put 3 (sampleRow 3), .put 4 (sampleRow 4),
    .put 5 (sampleRow 5), .close]

/-- A step of the client. Not in the code. -/
def cl : Col.Label (DataRow Fl) 1 := .client fun _ => ⟨0, 0, ⟨0, fun _ => .fin 0⟩⟩
/-- A step of the thread. Not in the code. -/
def th : Col.Label (DataRow Fl) 1 := .thread 0

theorem sampleRun : ∃ s, Run sampleParams 3 2 sampleRow s ∧ s.writes.map (·.1) = [0, 1] := by
  obtain ⟨s, hr, hs⟩ : ∃ s, Col.Reachable sampleParams (Col.initial sampleParams 0 0 (fun _ => none) 0 sampleOps) s ∧
      ((match s.client with | .closed => true | _ => false), s.writes.map (·.1)) = (true, [0, 1]) :=
    Col.reachable_of_run (ls := [cl, cl, cl, cl, cl, cl, cl, cl, cl, cl, cl, th, th, th, cl, th, th, th, cl, th, cl])
      (by decide +kernel)
  rw [Prod.mk.injEq] at hs
  refine ⟨s, ⟨by decide, 2 * 3, Nat.le_refl _, by decide, by decide, by decide, ?_, ?_, ⟨0, 0, 0, sampleOps, by decide, ?_, hr⟩, ?_⟩, hs.2⟩
  · intro r h1 h2
    have : r / 3 = 0 := by omega
    simp [sampleParams, this]
  · intro _
    decide
  · simp [sampleOps, Col.Whole]
  · have := hs.1
    split at this
    · assumption
    · simp at this

/-- A table of two blocks of three rows, of which the weight column is the last column, was written and
closed. -/
theorem sample_written : ∃ (s : Col.State (DataRow Fl) Nat 1) (ops : List BlockOp) (c : Column),
    Run sampleParams 3 2 sampleRow s ∧ (newTable 6 3 2 tableMan).columns[1]? = some c ∧
    c.isData = false ∧ Supported c.bits ∧ c.nPol = 4 ∧ c.nCh = 16 ∧
    Implements (weightCodec c) c 3 1 ops s.writes ∧
    (∃ d, .write ((ops.foldl blockStep (newTable 6 3 2 tableMan)).nBlocks - 1) (tableMan.columns.length - 1) d ∈
      ops) ∧
    WeightRows 4 16 (2 * 3) sampleRow (fun row _ _ => (row : ℚ) + 1) ∧
    Weight.FloatWeights (2 * 3) 16 4 (fun row _ _ => (row : ℚ) + 1) ∧
    ∀ row : Nat, Weight.IsMin 4 (fun _ => (row : ℚ) + 1) ((row : ℚ) + 1) := by
  obtain ⟨s, hrun, hw⟩ := sampleRun
  have hW : WeightRows 4 16 (2 * 3) sampleRow (fun row _ _ => (row : ℚ) + 1) :=
    fun row _ => ⟨rfl, fun _ _ _ _ => rfl⟩
  have hF : Weight.FloatWeights (2 * 3) 16 4 (fun row _ _ => (row : ℚ) + 1) := by
    intro row ch po hrow _ _
    have e : ((row : ℚ) + 1) = ((row + 1 : Nat) : ℚ) := by push_cast; rfl
    have h7 : ((row + 1 : Nat) : ℚ) ≤ 7 := by
      have : row + 1 ≤ 7 := by omega
      exact_mod_cast this
    simp only [e]
    refine ⟨by positivity, lt_of_le_of_lt h7 (by norm_num), Fl.repr32_nat (by omega)⟩
  have hmin : ∀ row : Nat, Weight.IsMin 4 (fun _ => (row : ℚ) + 1) ((row : ℚ) + 1) :=
    fun row => ⟨⟨0, by decide, rfl⟩, fun _ _ => le_refl _⟩
  have hlen : 1 < (newTable 6 3 2 tableMan).columns.length := by decide +kernel
  generalize hcd : (newTable 6 3 2 tableMan).columns[1] = c
  have hc : (newTable 6 3 2 tableMan).columns[1]? = some c := by rw [List.getElem?_eq_getElem hlen, hcd]
  obtain ⟨c0, k0, k1, k2, k3, k4, k5, k6, k7⟩ := newTable_column tableMan_new hc
  obtain rfl : (⟨false, 4, 16, 0, .af, 0, 0, 0⟩ : Column) = c0 := by simpa [tableMan] using k0
  simp only [Bool.false_eq_true, if_false, tableMan] at k1 k2 k3 k4
  have hb : Supported c.bits := by rw [k4]; unfold Supported; omega
  have henc : ∀ b, b < 2 → ∀ rws : Col.Rows (DataRow Fl), rws.len = 3 →
      (∀ j, j < 3 → rws.get j = some (sampleRow (b * 3 + j))) → ∃ d, Encodes (weightCodec c) c 3 rws d := by
    intro b hb2 rws hl hg
    have hget : ∀ j, j < 3 → (toBlock (.fin 0) rws).get j = sampleRow (b * 3 + j) := by
      intro j hj
      simp only [toBlock]
      rw [hg j hj, Option.getD_some]
    obtain ⟨M, sym', hM, hwr, _⟩ := weightWrites (nCh := 16) (nPol := 4) hb (by decide) (rows := toBlock (.fin 0) rws)
      (W := fun j _ _ => ((b * 3 + j : Nat) : ℚ) + 1) (m := fun j _ => ((b * 3 + j : Nat) : ℚ) + 1)
      (by
        intro j hj
        rw [hget j (by rw [← hl]; exact hj)]
        exact hW _ (flat_lt hb2 (by rw [← hl]; exact hj)))
      (fun j ch po hj hch hpo => hF _ ch po (flat_lt hb2 (by rw [← hl]; exact hj)) hch hpo)
      (fun j ch _ _ => hmin _)
    have e1 : (toBlock (.fin 0) rws).len = 3 := hl
    rw [e1] at hwr
    have e2 : c.metaCount 3 c.antennaCount = Weight.metaDataFloatCount := by simp [Column.metaCount, k1]
    have e3 : c.symCount 3 = Weight.symbolCount 3 16 := by simp [Column.symCount, k1, k3]
    rw [← k6, e2, e3] at k7
    obtain ⟨blk, _, g1, _⟩ := writeBlock_spec hb hwr
    obtain ⟨d, ed, _⟩ := g1 ⟨c.blockSize, fun _ => 0⟩ ⟨Weight.symbolCount 3 16, fun _ => 0⟩ k7 rfl
    refine ⟨d, fun _ => 0, 0, ⟨c.blockSize, fun _ => 0⟩, ⟨Weight.symbolCount 3 16, fun _ => 0⟩, rfl, e3.symm, ?_⟩
    rw [e2, e3]
    simp only [weightCodec, k2, k3]
    exact ed
  obtain ⟨r0, o0, l0, g0⟩ := hrun.written (by decide) (b := 0) (by decide)
  obtain ⟨r1, o1, l1, g1⟩ := hrun.written (by decide) (b := 1) (by decide)
  obtain ⟨d0, hd0⟩ := henc 0 (by decide) r0 l0 g0
  obtain ⟨d1, hd1⟩ := henc 1 (by decide) r1 l1 g1
  have hwr : s.writes = [(0, r0), (1, r1)] := by
    generalize s.writes = w at *
    match w, hw with
    | [(_, a), (_, b)], hw =>
      simp only [List.map_cons, List.map_nil, List.cons.injEq, and_true] at hw
      obtain ⟨rfl, rfl⟩ := hw
      simp [Col.ofBlock] at o0 o1
      rw [o0, o1]
  refine ⟨s, [.write 0 1 d0, .write 1 1 d1], c, hrun, hc, k1, hb, k2, k3, ?_, ⟨d1, ?_⟩, hW, hF, hmin⟩
  · rw [hwr]
    unfold Implements
    simp only [colWrites, List.filterMap_cons, if_true, List.filterMap_nil]
    exact .cons ⟨rfl, hd0⟩ (.cons ⟨rfl, hd1⟩ .nil)
  · have : ([BlockOp.write 0 1 d0, .write 1 1 d1].foldl blockStep (newTable 6 3 2 tableMan)).nBlocks = 2 := rfl
    rw [this]
    simp [tableMan]

/-- The further hypotheses for data: a table of 2 bits, rows with a flagged visibility. -/
example : Table Row.smallTable (fun i => if i = 0 then -1 / 2 else if i = 1 then 1 / 2 else fltMax)
      (fun i => (i : ℚ) - 1) 1 ∧ Row.smallTable.quantCount = 2 ^ 2 ∧ -(5 / 4 * 1) ≤ ((0 : Nat) : ℚ) - 1 ∧ ((0 : Nat) : ℚ) - 1 + 1 ≤ 1 ∧
    (∀ k : Nat, (((k + 1 : Nat) : ℚ) - 1) - ((k : ℚ) - 1) ≤ 1) ∧
    DataRows 3 6 (fun r => ⟨r, r + 1, ⟨3, Row.sampleVis⟩⟩) (fun r => (r, r + 1)) (fun _ => Row.sampleVis) ∧
    AF.AntennasBelow 6 7 (fun r => (r, r + 1)) := by
  refine ⟨Row.smallTable_ok, rfl, by norm_num, by norm_num, fun k => by push_cast; linarith,
    ⟨fun _ _ => rfl, fun _ _ => rfl, fun _ _ _ _ => rfl⟩, ?_⟩
  intro r hr
  exact ⟨by show r < 7; omega, by show r + 1 < 7; omega⟩

end Dysco.End
