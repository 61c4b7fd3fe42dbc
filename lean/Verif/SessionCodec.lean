import Verif.SessionEnd
import Verif.WorldTable

/-!
# Any bytes decode

Blocks of data and weights: whatever bytes an encoder gives, they decode, and what they decode to can be encoded again.
-/

namespace Dysco.Session
open Col Multi StMan End BytePacker Layout World TimeBlock
open Prepare (Lib encoder)
open Tools (Distribution)

/-! ## Bytes -/

theorem unpacked_below {b n : Nat} {p : Nat → BitVec 8} {old m : Mem 32} (h : HoldsUnpacked b n p old m) {i : Nat}
    (hi : i < n) : (m.get i).toNat < 2 ^ b := by
  apply Nat.lt_pow_two_of_testBit
  intro t ht
  by_cases h32 : t < 32
  · have := h.2.1 i hi t h32
    rw [if_neg (by omega)] at this
    rw [← this]
    rfl
  · apply Nat.testBit_lt_two_pow
    exact lt_of_lt_of_le (m.get i).isLt (Nat.pow_le_pow_right (by decide) (by omega))

/-- Any bytes of the right number are a block. -/
theorem holds_any {bits nMeta nSym : Nat} (hb : Supported bits) {d : Mem 8} (hl : d.len = blockSize nMeta nSym bits) :
    ∃ sym, BlockHolds bits nMeta nSym (metaView nMeta d) sym d := by
  have hlen : bufferSize nSym bits ≤ (tail (4 * nMeta) d).len := by
    show _ ≤ d.len - 4 * nMeta
    rw [hl]
    unfold blockSize
    omega
  obtain ⟨m, e, hm⟩ := unpack_stream bits nSym (symMem ⟨nSym, fun _ => 0⟩) (tail (4 * nMeta) d) hb (Nat.le_refl _) hlen
  refine ⟨symBuf m, rfl, hm.1, fun j hj => unpacked_below hm hj, hl, fun j hj => rfl, fun out ho => ?_⟩
  obtain ⟨s, e2, hs⟩ := unpack_stream bits nSym (symMem out) (tail (4 * nMeta) d) hb (by show nSym ≤ out.len; omega) hlen
  refine ⟨s, e2, hs.1.trans ho, fun j hj => ?_⟩
  show (s.get j).toNat = (m.get j).toNat
  congr 1
  apply BitVec.eq_of_getLsbD_eq
  intro t ht
  rw [hs.2.1 j hj t ht, hm.2.1 j hj t ht]

/-- Decoding row `r` also sets its antennas. -/
def SetsAnts {β : Type} (dec : Buf Fl → Buf Nat → Nat → Block β → Option (Block β)) (nMeta nSym q nRow : Nat)
    (A : Nat → Nat × Nat) : Prop :=
  ∀ metaB sym rows r, metaB.len = nMeta → sym.len = nSym → (∀ j, j < nSym → sym.get j < q) →
    r < nRow → r < rows.len → ∃ rows', dec metaB sym r rows = some rows' ∧ rows'.len = rows.len ∧
      (∀ j, j ≠ r → rows'.get j = rows.get j) ∧ (rows'.get r).antenna1 = (A r).1 ∧ (rows'.get r).antenna2 = (A r).2

theorem readBlock_ants {β : Type} {dec : Buf Fl → Buf Nat → Nat → Block β → Option (Block β)}
    {bits nMeta nSym nRow : Nat} {A : Nat → Nat × Nat} (hb : Supported bits) (h : SetsAnts dec nMeta nSym (2 ^ bits) nRow A)
    {dflt : DataRow β} {packed : Mem 8} {out : Buf Nat} {rows blk : Block β} (ho : out.len = nSym)
    (hlen : packed.len = blockSize nMeta nSym bits)
    (e : readBlock dec bits nMeta nSym nRow dflt packed out rows = .ok blk) :
    ∀ r, r < nRow → (blk.get r).antenna1 = (A r).1 ∧ (blk.get r).antenna2 = (A r).2 := by
  obtain ⟨s, e1, hs⟩ := unpack_stream bits nSym (symMem out) (tail (4 * nMeta) packed) hb
    (by show nSym ≤ out.len; omega) (by
      show _ ≤ packed.len - 4 * nMeta
      rw [hlen]
      unfold blockSize
      omega)
  have ls : s.len = nSym := hs.1.trans ho
  obtain ⟨rows', e2, l2, g2⟩ := forRange_inv nRow
    (fun r rows => dec (metaView nMeta packed) (symBuf s) r rows) (rows.resize nRow dflt)
    (fun k rows' => rows'.len = nRow ∧ ∀ r, r < k → (rows'.get r).antenna1 = (A r).1 ∧ (rows'.get r).antenna2 = (A r).2)
    ⟨rfl, fun _ hr => by omega⟩ (by
      rintro k rows1 hk ⟨a1, a2⟩
      obtain ⟨rows2, e, b1, b2, b3⟩ := h (metaView nMeta packed) (symBuf s) rows1 k rfl ls
        (fun j hj => unpacked_below hs hj) hk (by omega)
      refine ⟨rows2, e, by omega, fun r hr => ?_⟩
      by_cases hrk : r = k
      · subst hrk
        exact b3
      · rw [b2 r hrk]
        exact a2 r (by omega))
  unfold readBlock at e
  rw [if_neg (by rw [hlen]; unfold blockSize; omega), e1] at e
  simp only [e2] at e
  injection e with e
  subst e
  exact g2

/-! ## What a block decodes to -/

/-- The rows `r` have the values `U` and, if they matter, the antennas `A`. -/
structure IsRows {β : Type} (ants : Bool) (rows n : Nat) (U : Nat → Nat → β) (A : Nat → Nat × Nat)
    (r : Rows (DataRow β)) : Prop where
  len : r.len = rows
  row : ∀ j, j < rows → ∃ x, r.get j = some x ∧ x.vis.len = n ∧ (∀ i, i < n → x.vis.get i = U j i) ∧
    (ants = true → (x.antenna1, x.antenna2) = A j)

theorem decodes_iff {β : Type} {ants : Bool} {K : Codec β} {col : Column} {rows b n : Nat} (hb : Supported col.bits)
    (hsize : col.blockSize = Layout.blockSize (col.metaCount rows col.antennaCount) (col.symCount rows) col.bits)
    {V : Buf Fl → Buf Nat → Nat → Nat → β}
    (hr : Reads (K.dec b) (col.metaCount rows col.antennaCount) (col.symCount rows) (2 ^ col.bits) rows n V)
    {A : Nat → Nat × Nat} (hA : ants = true →
      SetsAnts (K.dec b) (col.metaCount rows col.antennaCount) (col.symCount rows) (2 ^ col.bits) rows A)
    {d : Mem 8} {metaB : Buf Fl} {sym : Buf Nat}
    (hd : BlockHolds col.bits (col.metaCount rows col.antennaCount) (col.symCount rows) metaB sym d)
    (r : Rows (DataRow β)) :
    Decodes ants K col rows b d r ↔ IsRows ants rows n (fun j i => V metaB sym j i) A r := by
  have key : ∀ (packed : Mem 8) (unpacked : Buf Nat) (old : Block β), packed.len = col.blockSize →
      unpacked.len = col.symCount rows → (∀ k, k < col.blockSize → packed.get k = d.get k) →
      ∃ blk, readBlock (K.dec b) col.bits (col.metaCount rows col.antennaCount) (col.symCount rows) rows
        ⟨0, 0, ⟨0, fun _ => K.zero⟩⟩ packed unpacked old = .ok blk ∧ blk.len = rows ∧
        ∀ j, j < rows → (blk.get j).vis.len = n ∧ (∀ i, i < n → (blk.get j).vis.get i = V metaB sym j i) ∧
          (ants = true → (blk.get j).antenna1 = (A j).1 ∧ (blk.get j).antenna2 = (A j).2) := by
    intro packed unpacked old hp hu hk
    have hd' := hd.congr hb (d' := packed) (by rw [hp, hsize, hd.size]) (fun k hk' => hk k (by rw [hsize]; exact hk'))
    obtain ⟨blk, e, l, g⟩ := readBlock_spec hr hd'.metaLen hd'.symLen hd'.below hd'.size hd'.floats hd'.symbols
      ⟨0, 0, ⟨0, fun _ => K.zero⟩⟩ unpacked hu old
    exact ⟨blk, e, l, fun j hj => ⟨(g j hj).1, (g j hj).2, fun ha =>
      readBlock_ants hb (hA ha) hu (by rw [hp, hsize]) e j hj⟩⟩
  constructor
  · intro h
    obtain ⟨blk, e, hs⟩ := h ⟨col.blockSize, d.get⟩ ⟨col.symCount rows, fun _ => 0⟩ ⟨0, fun _ => ⟨0, 0, ⟨0, fun _ => K.zero⟩⟩⟩
      rfl rfl (fun _ _ => rfl)
    obtain ⟨blk', e', -, g⟩ := key ⟨col.blockSize, d.get⟩ ⟨col.symCount rows, fun _ => 0⟩
      ⟨0, fun _ => ⟨0, 0, ⟨0, fun _ => K.zero⟩⟩⟩ rfl rfl (fun _ _ => rfl)
    rw [e] at e'
    injection e' with e'
    subst e'
    refine ⟨hs.len, fun j hj => ?_⟩
    obtain ⟨x, x1, x2, x3, x4⟩ := hs.row j hj
    obtain ⟨g1, g2, g3⟩ := g j hj
    refine ⟨x, x1, x2.trans g1, fun i hi => ?_, fun ha => ?_⟩
    · rw [x3 i (by rw [x2, g1]; exact hi), g2 i hi]
    · rw [(x4 ha).1, (x4 ha).2, (g3 ha).1, (g3 ha).2]
  · intro h packed unpacked old hp hu hk
    obtain ⟨blk, e, l, g⟩ := key packed unpacked old hp hu hk
    refine ⟨blk, e, l, h.len, fun j hj => ?_⟩
    obtain ⟨x, x1, x2, x3, x4⟩ := h.row j hj
    obtain ⟨g1, g2, g3⟩ := g j hj
    refine ⟨x, x1, x2.trans g1.symm, fun i hi => ?_, fun ha => ?_⟩
    · rw [g2 i (by rw [← x2]; exact hi), x3 i (by rw [← x2]; exact hi)]
    · rw [(g3 ha).1, (g3 ha).2, ← x4 ha]
      exact ⟨rfl, rfl⟩

theorem encodes_len {β : Type} {K : Codec β} {col : Column} {rows : Nat} {r : Rows (DataRow β)} {d : Mem 8}
    (h : Encodes K col rows r d) :
    d.len = Layout.blockSize (col.metaCount rows col.antennaCount) (col.symCount rows) col.bits := by
  obtain ⟨dith, fuel, packed, unpacked, -, -, e⟩ := h
  unfold writeBlock at e
  split at e
  · cases e
  · split at e
    · cases e
    · cases e
    · split at e
      · cases e
      · cases e
      · split at e
        · cases e
        · injection e with e
          subst e
          rfl

theorem dataSetsAnts {norm : Norm} {e : Stochastic.Encoder} {b l : Nat → ℚ} {L : ℚ} (hT : Dysco.Table e b l L)
    {nR nPol nCh nAnt : Nat} {A : Nat → Nat × Nat} (hA : norm = .af → AF.AntennasBelow nR nAnt A) :
    SetsAnts (decData norm e nPol nCh nAnt A) (dataMetaCount norm nR nPol nCh nAnt)
      (symbolCount nR nPol nCh) e.quantCount nR A := by
  rw [symbolCount_eq]
  intro metaB sym rows r hm hs hq hr hd
  have hrow : (r * (nPol * nCh) + nPol * nCh) * 2 ≤ nR * (nPol * nCh) * 2 := by
    have : (r + 1) * (nPol * nCh) ≤ nR * (nPol * nCh) := Nat.mul_le_mul_right _ hr
    rw [Nat.add_mul, Nat.one_mul] at this
    omega
  cases norm with
  | row =>
    have hm : metaB.len = nR := hm
    obtain ⟨d, e1, d1, d2, d3, d4, _, _⟩ := Row.decode_spec (RF := Fl.r32) (RD := Fl.r64) (nPol := nPol) (nCh := nCh) hT metaB
      sym rows r (A r).1 (A r).2 hd (by omega) (by omega) (fun j hj => hq j (by omega))
    exact ⟨d, e1, d1, d2, d3, d4⟩
  | rf =>
    have hm : metaB.len = nPol * (nCh + nR) := hm
    obtain ⟨d, e1, d1, d2, d3, d4, _, _⟩ := RF.decode_spec (RF := Fl.r32) (RD := Fl.r64) (nPol := nPol) (nCh := nCh) hT metaB
      sym rows r (A r).1 (A r).2 hd (by
        have : (r + 1) * nPol ≤ nR * nPol := Nat.mul_le_mul_right _ hr
        rw [hm, Nat.mul_add, Nat.mul_comm nPol nR]
        omega) (by omega) (fun j hj => hq j (by omega))
    exact ⟨d, e1, d1, d2, d3, d4⟩
  | af =>
    have hm : metaB.len = nPol * (nCh + nAnt) := hm
    obtain ⟨d, e1, d1, d2, d3, d4, _, _⟩ := AF.decode_spec (RF := Fl.r32) (RD := Fl.r64) (nPol := nPol) (nCh := nCh) hT metaB
      sym rows r (A r).1 (A r).2 hd (hA rfl r hr).1 (hA rfl r hr).2 (by
        rw [hm, Nat.mul_add, Nat.mul_comm nPol nAnt]) (by omega) (fun j hj => hq j (by omega))
    exact ⟨d, e1, d1, d2, d3, d4⟩

/-! ## Rows that can be encoded -/

/-- Rows of data of block `b`: all visibilities are there, and the antennas are those of the table. -/
structure FitData (col : Column) (rows : Nat) (antOf : Nat → Nat × Nat) (b : Nat) (r : Rows (DataRow Cx)) : Prop where
  len : r.len = rows
  row : ∀ j, j < rows → ∃ x, r.get j = some x ∧ x.vis.len = col.nPol * col.nCh ∧
    (x.antenna1, x.antenna2) = antOf (b * rows + j)

/-- A row of weights: no weight is negative or not finite. -/
def FitWeight (col : Column) (x : DataRow Fl) : Prop :=
  x.vis.len = col.nCh * col.nPol ∧ ∀ i, i < col.nCh * col.nPol → ∃ y, x.vis.get i = .fin y ∧ 0 ≤ y ∧
    y < 2 ^ (128 : ℤ) ∧ Fl.Repr Fl.binary32 y

/-- Rows of weights. -/
structure FitWeights (col : Column) (rows : Nat) (r : Rows (DataRow Fl)) : Prop where
  len : r.len = rows
  row : ∀ j, j < rows → ∃ x, r.get j = some x ∧ FitWeight col x

/-- The rows of a block of a column of kind `k`. -/
def Fit (col : Column) (rows : Nat) (antOf : Nat → Nat × Nat) : (k : Kind) → Nat → Rows (DataRow (Elem k)) → Prop
  | .data, b, r => FitData col rows antOf b r
  | .weight, _, r => FitWeights col rows r

section
variable {rows b : Nat} {col : Column} {antOf : Nat → Nat × Nat}

theorem toBlock_get {β : Type} (zero : β) {r : Rows (DataRow β)} {j : Nat} {x : DataRow β} (h : r.get j = some x) :
    (toBlock zero r).get j = x := by
  simp only [toBlock]
  rw [h, Option.getD_some]

/-! ### Weights -/

/-- Weights: what is written decodes to weights that can be written again. -/
theorem weights_recoded (hbits : Supported col.bits) (hk : col.isData = false) (hp : 1 ≤ col.nPol) (hch : 0 < col.nCh)
    (hsize : col.blockSize = Layout.blockSize (col.metaCount rows col.antennaCount) (col.symCount rows) col.bits)
    {r : Rows (DataRow Fl)} (hf : FitWeights col rows r) :
    (∃ r', Recoded false (weightCodec col) col rows b r r') ∧
    (∀ d, Encodes (weightCodec col) col rows r d → ∃ r', Decodes false (weightCodec col) col rows b d r') ∧
    ∀ r', Recoded false (weightCodec col) col rows b r r' → FitWeights col rows r' ∧
      ∀ v, (∀ j, j < rows → r.get j = some (v j)) → ∀ j, j < rows →
        ∃ x, r'.get j = some x ∧ CloseWeights col rows rows v j x.vis := by
  have hv : ∀ j, ∃ x, j < rows → r.get j = some x ∧ FitWeight col x := by
    intro j
    by_cases h : j < rows
    · obtain ⟨x, hx⟩ := hf.row j h
      exact ⟨x, fun _ => hx⟩
    · exact ⟨⟨0, 0, ⟨0, fun _ => .nan⟩⟩, fun h' => absurd h' h⟩
  choose v hv using hv
  choose mn hmn using fun row ch => exists_isMin hp (weightAt col.nPol v row ch)
  have hlen : (toBlock (.fin 0) r).len = rows := hf.len
  have e2 : col.metaCount rows col.antennaCount = Weight.metaDataFloatCount := by simp [Column.metaCount, hk]
  have e3 : col.symCount rows = Weight.symbolCount rows col.nCh := by simp [Column.symCount, hk]
  have hval : ∀ j ch po, j < rows → ch < col.nCh → po < col.nPol → ∃ x,
      (v j).vis.get (ch * col.nPol + po) = .fin x ∧ weightAt col.nPol v j ch po = x ∧ 0 ≤ x ∧
      x < 2 ^ (128 : ℤ) ∧ Fl.Repr Fl.binary32 x := by
    intro j ch po hj hch hpo
    obtain ⟨x, hx, h2⟩ := (hv j hj).2.2 (ch * col.nPol + po) (flat_lt hch hpo)
    exact ⟨x, hx, by unfold weightAt; rw [hx]; rfl, h2⟩
  have hF : Weight.FloatWeights rows col.nCh col.nPol (weightAt col.nPol v) := by
    intro j ch po hj hch hpo
    obtain ⟨x, h1, h2, h3⟩ := hval j ch po hj hch hpo
    rw [h2]
    exact h3
  obtain ⟨M, sym', hM, hwr, hs'⟩ := weightWrites (nCh := col.nCh) (nPol := col.nPol) hbits hp
    (rows := toBlock (.fin 0) r) (W := weightAt col.nPol v) (m := mn)
    (by
      intro j hj
      rw [hlen] at hj
      rw [toBlock_get _ (hv j hj).1]
      refine ⟨(hv j hj).2.1, fun ch po hch hpo => ?_⟩
      obtain ⟨x, h1, h2, -⟩ := hval j ch po hj hch hpo
      rw [h1, ← h2])
    (by rw [hlen]; exact hF)
    (fun j ch _ _ => hmn _ ch)
  rw [hlen] at hwr hM hs'
  obtain ⟨hmf, hM0, hMr, hM2⟩ := Weight.float_min_max hF (fun j ch _ _ => hmn j ch) hM
  have hread := weightReads (nR := rows) (nPol := col.nPol) (bits := col.bits) hch
  obtain ⟨blk, b1, b2, b3, b4⟩ := writeBlock_spec hbits hwr
  have hmetas : ∀ {d : Mem 8}, Encodes (weightCodec col) col rows r d →
      BlockHolds col.bits (col.metaCount rows col.antennaCount) (col.symCount rows) ⟨1, fun _ => .fin M⟩ sym' d := by
    rintro d ⟨dith, fuel, packed, unpacked, p1, p2, p3⟩
    rw [e2, e3] at p3 ⊢
    rw [hsize, e2, e3] at p1
    rw [e3] at p2
    obtain ⟨m, m1, m2, m3⟩ := b2 packed unpacked p1 p2
    have hblk : BlockHolds col.bits Weight.metaDataFloatCount (Weight.symbolCount rows col.nCh) ⟨1, fun _ => .fin M⟩ sym' blk :=
      ⟨hwr.metaLen, hwr.symLen, hwr.below, b1, b3, b4⟩
    have p3' : writeBlock (encWeight col.nPol col.nCh col.bits (toBlock (.fin 0) r)) col.bits Weight.metaDataFloatCount
        (Weight.symbolCount rows col.nCh) packed unpacked = .ok d := p3
    rw [m1] at p3'
    injection p3' with p3'
    subst p3'
    exact hblk.congr hbits m2 (fun k hk => m3 k (by rw [b1]; exact hk))
  have hread' : Reads ((weightCodec col).dec b) (col.metaCount rows col.antennaCount) (col.symCount rows) (2 ^ col.bits) rows
      (col.nCh * col.nPol) (fun metaB sym r i => Weight.decodeSample Fl.r32 Fl.r64 (2 ^ col.bits) (metaB.get 0)
        (sym.get (r * col.nCh + i / col.nPol))) := by
    rw [e2, e3]; exact hread
  have hiff : ∀ {d : Mem 8}, Encodes (weightCodec col) col rows r d → ∀ r', Decodes false (weightCodec col) col rows b d r' ↔ _ :=
    fun hd r' => decodes_iff (ants := false) (A := fun _ => (0, 0)) hbits hsize hread' (fun h => by cases h) (hmetas hd) r'
  have hdec : ∀ d, Encodes (weightCodec col) col rows r d → ∃ r', Decodes false (weightCodec col) col rows b d r' :=
    fun d hd => ⟨⟨rows, fun j => some ⟨0, 0, ⟨col.nCh * col.nPol, fun i => _⟩⟩⟩,
      (hiff hd _).mpr ⟨rfl, fun j _ => ⟨_, rfl, rfl, fun i _ => rfl, fun h => by cases h⟩⟩⟩
  refine ⟨?_, hdec, ?_⟩
  · obtain ⟨d, hd⟩ := encodes_of_writes (K := weightCodec col) (r := r) (dith := fun _ => 0) (fuel := 0)
      (metaB := ⟨1, fun _ => .fin M⟩) (sym := sym') hbits hsize (by rw [e2, e3]; exact hwr)
    obtain ⟨r', hr'⟩ := hdec d hd
    exact ⟨r', d, hd, hr'⟩
  · rintro r' ⟨d, hd, hd2⟩
    have hrows := (hiff hd r').mp hd2
    have hpp : 0 < col.nPol := hp
    have hq : 2 ≤ 2 ^ col.bits := by
      have : 2 ^ 1 ≤ 2 ^ col.bits := Nat.pow_le_pow_right (by decide) (by unfold Supported at hbits; omega)
      simpa using this
    have hq2 : 2 ^ col.bits ≤ 2 ^ 16 := Nat.pow_le_pow_right (by decide) (by unfold Supported at hbits; omega)
    have hval2 : ∀ j, j < rows → ∃ x, r'.get j = some x ∧ x.vis.len = col.nCh * col.nPol ∧
        ∀ i, i < col.nCh * col.nPol → ∃ y, x.vis.get i = .fin y ∧ Fl.Repr Fl.binary32 y ∧ 0 ≤ y ∧ y ≤ M ∧
          |y - mn j (i / col.nPol)| ≤ M / (2 * ((2 : ℚ) ^ col.bits - 1)) + M * 2 ^ (-22 : ℤ) + 2 ^ (-149 : ℤ) ∧
          (mn j (i / col.nPol) = M → y = mn j (i / col.nPol)) ∧ (mn j (i / col.nPol) = 0 → y = 0) := by
      intro j hj
      obtain ⟨x, x1, x2, x3, -⟩ := hrows.row j hj
      refine ⟨x, x1, x2, fun i hi => ?_⟩
      have hic : i / col.nPol < col.nCh := (Nat.div_lt_iff_lt_mul hpp).mpr hi
      obtain ⟨a1, a2, a3⟩ := hmf j (i / col.nPol) hj hic
      obtain ⟨s, y, y1, -, y2, y3, y4, y5, y6, y7⟩ := Weight.sample_core (2 ^ col.bits) hq hq2 a1 a2 a3 hM0 hMr hM2
      rw [hs' j (i / col.nPol) hj hic] at y1
      injection y1 with y1
      refine ⟨y, ?_, ?_, y3, y4, by simpa using y5, y6, y7⟩
      · rw [x3 i hi]
        simp only
        rw [y1, y2]
      · unfold Weight.decodeSample at y2
        cases hx : Fl.mul Fl.r64 (.fin s) (Fl.div Fl.r64 (.fin M) (.fin ((2 ^ col.bits - 1 : Nat) : ℚ))) with
        | fin z =>
          rw [hx] at y2
          simp only [Fl.cast, Fl.r32, Fl.round] at y2
          split at y2
          · injection y2 with y2
            rw [← y2]
            exact Fl.repr_rnd _ _
          · cases y2
        | inf _ => rw [hx] at y2; cases y2
        | nan => rw [hx] at y2; cases y2
    refine ⟨⟨hrows.len, fun j hj => ?_⟩, fun v' hv' j hj => ?_⟩
    · obtain ⟨x, x1, x2, x3⟩ := hval2 j hj
      refine ⟨x, x1, x2, fun i hi => ?_⟩
      obtain ⟨y, y1, y2, y3, y4, -⟩ := x3 i hi
      exact ⟨y, y1, y3, lt_of_le_of_lt y4 hM2, y2⟩
    · obtain ⟨x, x1, x2, x3⟩ := hval2 j hj
      refine ⟨x, x1, mn, M, fun j' ch hj' hch' => ?_, ?_, x2, fun ch po hch' hpo => ?_⟩
      · have e : v j' = v' j' := by
          have := (hv j' hj').1
          rw [hv' j' hj'] at this
          injection this with this
          exact this.symm
        have := hmn j' ch
        unfold weightAt at this ⊢
        rw [← e]
        exact this
      · rw [Nat.div_eq_of_lt hj]
        simpa using hM
      · obtain ⟨y, y1, -, y3⟩ := x3 (ch * col.nPol + po) (flat_lt hch' hpo)
        rw [flat_div hpo] at y3
        exact ⟨y, y1, y3⟩

/-! ### Data -/

/-- Data: whatever bytes are written, they decode to rows that can be written again. -/
theorem data_decoded (hbits : Supported col.bits) (hk : col.isData = true) {sq : Fl → Fl}
    (hsize : col.blockSize = Layout.blockSize (col.metaCount rows col.antennaCount) (col.symCount rows) col.bits)
    {e : Stochastic.Encoder} {bd l : Nat → ℚ} {L : ℚ} (hT : Dysco.Table e bd l L) (hq : e.quantCount = 2 ^ col.bits)
    (hA : col.norm = .af → AF.AntennasBelow rows col.antennaCount fun j => antOf (b * rows + j))
    {r : Rows (DataRow Cx)} {d : Mem 8} (hd : Encodes (dataCodec sq e antOf rows col) col rows r d) :
    (∃ r', Decodes true (dataCodec sq e antOf rows col) col rows b d r') ∧
    ∀ r', Decodes true (dataCodec sq e antOf rows col) col rows b d r' → FitData col rows antOf b r' := by
  have e2 : col.metaCount rows col.antennaCount = dataMetaCount col.norm rows col.nPol col.nCh col.antennaCount := by
    simp [Column.metaCount, hk]
  have e3 : col.symCount rows = symbolCount rows col.nPol col.nCh := by simp [Column.symCount, hk]
  obtain ⟨sym, hh⟩ := holds_any hbits (encodes_len hd)
  have hread : Reads ((dataCodec sq e antOf rows col).dec b) (col.metaCount rows col.antennaCount) (col.symCount rows)
      (2 ^ col.bits) rows (col.nPol * col.nCh)
      (valueOf col.norm e col.nPol col.nCh col.antennaCount fun j => antOf (b * rows + j)) := by
    rw [e2, e3, ← hq]
    exact dataReads col.norm hT hA
  have hsets : SetsAnts ((dataCodec sq e antOf rows col).dec b) (col.metaCount rows col.antennaCount) (col.symCount rows)
      (2 ^ col.bits) rows (fun j => antOf (b * rows + j)) := by
    rw [e2, e3, ← hq]
    exact dataSetsAnts hT hA
  have hiff := decodes_iff (ants := true) hbits hsize hread (fun _ => hsets) hh
  refine ⟨⟨⟨rows, fun j => some ⟨(antOf (b * rows + j)).1, (antOf (b * rows + j)).2, ⟨col.nPol * col.nCh, fun i => _⟩⟩⟩,
    (hiff _).mpr ⟨rfl, fun j _ => ⟨_, rfl, rfl, fun i _ => rfl, fun _ => rfl⟩⟩⟩, fun r' hr' => ?_⟩
  have hrows := (hiff r').mp hr'
  refine ⟨hrows.len, fun j hj => ?_⟩
  obtain ⟨x, x1, x2, -, x4⟩ := hrows.row j hj
  exact ⟨x, x1, x2, x4 rfl⟩

/-- Data with row or row-frequency normalisation can always be encoded. -/
theorem data_encodes (hbits : Supported col.bits) (hk : col.isData = true) {sq : Fl → Fl}
    (hsize : col.blockSize = Layout.blockSize (col.metaCount rows col.antennaCount) (col.symCount rows) col.bits)
    {e : Stochastic.Encoder} {bd l : Nat → ℚ} {L : ℚ} (hT : Dysco.Table e bd l L) (hq : e.quantCount = 2 ^ col.bits)
    (hr0 : 0 < rows) (hn : col.norm ≠ .af) {r : Rows (DataRow Cx)} (hf : FitData col rows antOf b r) :
    ∃ d, Encodes (dataCodec sq e antOf rows col) col rows r d := by
  have e2 : col.metaCount rows col.antennaCount = dataMetaCount col.norm rows col.nPol col.nCh col.antennaCount := by
    simp [Column.metaCount, hk]
  have e3 : col.symCount rows = symbolCount rows col.nPol col.nCh := by simp [Column.symCount, hk]
  have hH : Dysco.Holds rows (col.nPol * col.nCh) (fun j => antOf (b * rows + j))
      (fun j => ((toBlock ⟨.fin 0, .fin 0⟩ r).get j).vis.get) (toBlock ⟨.fin 0, .fin 0⟩ r) := by
    refine ⟨hf.len, fun j hj => ?_, fun j hj => ?_, fun _ _ _ _ => rfl⟩
    · obtain ⟨x, x1, x2, x3⟩ := hf.row j hj
      rw [toBlock_get _ x1, x2]
    · obtain ⟨x, x1, x2, x3⟩ := hf.row j hj
      rw [toBlock_get _ x1, x3]
  rcases dataWrites col.norm sq hT hH hr0 (fun h => absurd h hn) (nAnt := col.antennaCount) (fun _ => 0) 0 with ⟨hx, -⟩ | ⟨metaB, sym, hw⟩
  · exact absurd hx hn
  · refine encodes_of_writes (K := dataCodec sq e antOf rows col) (dith := fun _ => 0) (fuel := 0) (metaB := metaB) (sym := sym)
      hbits hsize ?_
    rw [e2, e3, ← hq]
    exact hw

end

end Dysco.Session
