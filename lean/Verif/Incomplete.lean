import Verif.LayoutProps
import Verif.PackPrefix

/-!
# C117: a block with fewer rows than the column's block length

The last block of a table may have fewer rows than the others. `encodeAndWrite` (threadeddyscocolumn.cc:272-294)
gives the encoder the rows that there are, but buffers, packing and block size are those of `nRowsInBlock()` rows:
the rest of the symbol buffer is what the thread left there (uninitialised memory at first, 306-308), and it is
packed and stored with the rest. `loadBlock` (79-104) unpacks and decodes all `nRowsInBlock()` rows.
-/

namespace Dysco.Layout
open BytePacker TimeBlock Stochastic

/-- With buffers of `nMeta` floats and `nSym` symbols, with any contents, the codec always writes the same `kMeta`
floats and `kSym` symbols at their start. -/
def Starts (enc : Buf Fl → Buf Nat → Option (Option (Buf Fl × Buf Nat))) (nMeta nSym kMeta kSym : Nat)
    (metaB' : Buf Fl) (sym' : Buf Nat) : Prop :=
  ∀ metaB sym, metaB.len = nMeta → (∀ j, nMeta ≤ j → metaB.get j = .nan) → sym.len = nSym →
    ∃ m s, enc metaB sym = some (some (m, s)) ∧ m.len = nMeta ∧ s.len = nSym ∧
      (∀ j, j < kMeta → m.get j = metaB'.get j) ∧ ∀ j, j < kSym → s.get j = sym'.get j

/-- The block is written whatever the buffers hold; reading it gives the floats and symbols the codec wrote, followed
by symbols that are not known but have the right number of bits. -/
theorem writeBlock_starts {enc : Buf Fl → Buf Nat → Option (Option (Buf Fl × Buf Nat))}
    {bits nMeta nSym kMeta kSym : Nat} (hb : Supported bits) (hkm : kMeta ≤ nMeta) (hks : kSym ≤ nSym)
    {metaB' : Buf Fl} {sym' : Buf Nat} (hf : ∀ j, j < kMeta → Fl.IsFloat (metaB'.get j))
    (hlt : ∀ j, j < kSym → sym'.get j < 2 ^ bits) (h : Starts enc nMeta nSym kMeta kSym metaB' sym')
    (packed : Mem 8) (unpacked : Buf Nat) (hp : packed.len = blockSize nMeta nSym bits) (hu : unpacked.len = nSym) :
    ∃ blk, writeBlock enc bits nMeta nSym packed unpacked = .ok blk ∧ blk.len = blockSize nMeta nSym bits ∧
      (∀ j, j < kMeta → (metaView nMeta blk).get j = metaB'.get j) ∧
      ∀ out : Buf Nat, out.len = nSym → ∃ s, unpack bits (symMem out) (tail (4 * nMeta) blk) nSym = .ok s ∧
        s.len = nSym ∧ (∀ j, j < nSym → (s.get j).toNat < 2 ^ bits) ∧
        ∀ j, j < kSym → (s.get j).toNat = sym'.get j := by
  have hb16 : bits ≤ 16 ∧ 0 < bits := by unfold Supported at hb; omega
  have hsz : ∀ k, k < 2 ^ bits → k < 2 ^ 32 := fun k hk =>
    lt_of_lt_of_le hk (Nat.pow_le_pow_right (by decide) (by omega))
  obtain ⟨m, s, e, l1, l2, g1, g2⟩ := h (metaView nMeta packed) unpacked rfl (fun j hj => if_neg (by omega)) hu
  have hv : ∀ i, i < kSym → ((symMem s).get i).toNat = sym'.get i := by
    intro i hi
    simp only [symMem]
    rw [BitVec.toNat_ofNat, g2 i hi, Nat.mod_eq_of_lt (hsz _ (hlt i hi))]
  obtain ⟨bin, e2, hbin⟩ := pack_prefix bits kSym nSym (symMem s) (tail (4 * nMeta) (storeMeta m packed)) hb hks
    (fun i hi => by rw [hv i hi]; exact hlt i hi) (by simp only [symMem]; omega)
    (by simp only [tail, storeMeta]; unfold blockSize at hp; omega)
  have ew : writeBlock enc bits nMeta nSym packed unpacked = .ok ⟨blockSize nMeta nSym bits,
      fun j => if j < 4 * nMeta then (storeMeta m packed).get j else bin.get (j - 4 * nMeta)⟩ := by
    unfold writeBlock
    rw [if_neg (by unfold blockSize at hp; omega), e]
    simp only
    rw [e2]
    simp only
    rw [if_neg (by omega)]
  refine ⟨_, ew, rfl, ?_, ?_⟩
  · intro j hj
    have hjm : j < nMeta := by omega
    have hle : le32 (⟨blockSize nMeta nSym bits, fun j => if j < 4 * nMeta then (storeMeta m packed).get j else
        bin.get (j - 4 * nMeta)⟩) (4 * j) = le32 (storeMeta m packed) (4 * j) := by
      unfold le32
      simp only
      rw [if_pos (by omega), if_pos (by omega), if_pos (by omega), if_pos (by omega)]
    have hfl : Fl.IsFloat (m.get j) := by rw [g1 j hj]; exact hf j hj
    unfold metaView
    simp only
    rw [if_pos hjm, hle, le32_storeMeta (by omega) hfl, Fl.ofBits_toBits hfl, g1 j hj]
  · intro out ho
    obtain ⟨u, eu, hun⟩ := unpack_stream bits nSym (symMem out) (tail (4 * nMeta)
      ⟨blockSize nMeta nSym bits, fun j => if j < 4 * nMeta then (storeMeta m packed).get j else
        bin.get (j - 4 * nMeta)⟩) hb (by simp only [symMem]; omega) (by simp only [tail, blockSize]; omega)
    have hbit : ∀ j, byteBit (tail (4 * nMeta) ⟨blockSize nMeta nSym bits, fun j => if j < 4 * nMeta then
        (storeMeta m packed).get j else bin.get (j - 4 * nMeta)⟩).get j = byteBit bin.get j := by
      intro j
      simp only [byteBit, tail]
      rw [if_neg (by omega), Nat.add_sub_cancel_left]
    have hsmall : ∀ j, j < nSym → (u.get j).toNat < 2 ^ bits := by
      intro i hi
      refine Nat.lt_of_not_le fun hge => ?_
      obtain ⟨t, ht, hv⟩ := Nat.exists_ge_and_testBit_of_ge_two_pow hge
      have h32 : t < 32 := by
        refine Nat.lt_of_not_le fun hx => ?_
        have := BitVec.getLsbD_of_ge (u.get i) t hx
        rw [BitVec.getLsbD, hv] at this
        cases this
      have := hun.2.1 i hi t h32
      rw [if_neg (by omega), BitVec.getLsbD, hv] at this
      cases this
    refine ⟨u, eu, by rw [hun.1]; exact ho, hsmall, ?_⟩
    intro j hj
    rw [← hv j hj]
    congr 1
    refine BitVec.eq_of_getLsbD_eq fun t ht => ?_
    rw [hun.2.1 j (by omega) t ht]
    split
    · rename_i htb
      have hjt : j * bits + t < kSym * bits := by
        have : (j + 1) * bits ≤ kSym * bits := Nat.mul_le_mul_right _ hj
        rw [Nat.add_mul] at this
        omega
      rw [hbit, hbin.2.1 _ hjt, Nat.mul_comm, Nat.mul_add_div hb16.2, Nat.mul_add_mod, Nat.div_eq_of_lt htb,
        Nat.mod_eq_of_lt htb, Nat.add_zero]
    · rename_i htb
      rw [BitVec.getLsbD, Nat.testBit_lt_two_pow]
      rw [hv j hj]
      exact Nat.lt_of_lt_of_le (hlt j hj) (Nat.pow_le_pow_right (by decide) (by omega))

/-- Reading such a block: the rows there were have the values of their floats and symbols. -/
theorem readBlock_starts {α : Type} {dec : Buf Fl → Buf Nat → Nat → Block α → Option (Block α)}
    {bits nMeta nSym nRow n : Nat} {V : Buf Fl → Buf Nat → Nat → Nat → α}
    (h : Reads dec nMeta nSym (2 ^ bits) nRow n V) {metaB' : Buf Fl} {sym' : Buf Nat} {kMeta kSym kRow : Nat}
    (hV : ∀ m s, (∀ j, j < kMeta → m.get j = metaB'.get j) → (∀ j, j < kSym → s.get j = sym'.get j) →
      ∀ r i, r < kRow → i < n → V m s r i = V metaB' sym' r i)
    {packed : Mem 8} (hlen : packed.len = blockSize nMeta nSym bits)
    (hmv : ∀ j, j < kMeta → (metaView nMeta packed).get j = metaB'.get j)
    (hun : ∀ out : Buf Nat, out.len = nSym →
      ∃ s, unpack bits (symMem out) (tail (4 * nMeta) packed) nSym = .ok s ∧ s.len = nSym ∧
        (∀ j, j < nSym → (s.get j).toNat < 2 ^ bits) ∧ ∀ j, j < kSym → (s.get j).toNat = sym'.get j)
    (dflt : DataRow α) (out : Buf Nat) (ho : out.len = nSym) (rows : Block α) :
    ∃ rows', readBlock dec bits nMeta nSym nRow dflt packed out rows = .ok rows' ∧ rows'.len = nRow ∧
      ∀ r, r < nRow → (rows'.get r).vis.len = n ∧
        (r < kRow → ∀ i, i < n → (rows'.get r).vis.get i = V metaB' sym' r i) := by
  obtain ⟨s, e, ls, bs, gs⟩ := hun out ho
  obtain ⟨rows', e2, l2, g2⟩ := forRange_inv nRow
    (fun r rows => dec (metaView nMeta packed) (symBuf s) r rows) (rows.resize nRow dflt)
    (fun k rows' => rows'.len = nRow ∧ ∀ r, r < k → (rows'.get r).vis.len = n ∧
        (r < kRow → ∀ i, i < n → (rows'.get r).vis.get i = V metaB' sym' r i))
    ⟨rfl, fun _ hr => by omega⟩ (by
      rintro k rows1 hk ⟨a1, a2⟩
      obtain ⟨rows2, e, b1, b2, b3, b4⟩ := h.row (metaView nMeta packed) (symBuf s) rows1 k rfl ls bs hk (by omega)
      refine ⟨rows2, e, by omega, ?_⟩
      intro r hr
      by_cases hrk : r = k
      · subst hrk
        refine ⟨b3, fun hrk i hi => ?_⟩
        rw [b4 i hi]
        exact hV _ _ hmv gs r i hrk hi
      · rw [b2 r hrk]
        exact a2 r (by omega))
  refine ⟨rows', ?_, l2, g2⟩
  unfold readBlock
  rw [if_neg (by unfold blockSize at hlen; omega), e]
  simp only
  rw [e2]

variable {nR nR' nPol nCh nAnt : Nat} {A : Nat → Nat × Nat} {D : Nat → Nat → Cx} {data : Block Cx}

/-- The values of a row depend on the floats and symbols of the rows there are only. -/
theorem valueOf_congr (norm : Norm) (e : Encoder) (hA : norm = .af → AF.AntennasBelow nR' nAnt A)
    {m m' : Buf Fl} {s s' : Buf Nat}
    (hm : ∀ j, j < dataMetaCount norm nR' nPol nCh nAnt → m.get j = m'.get j)
    (hs : ∀ j, j < symbolCount nR' nPol nCh → s.get j = s'.get j) {r i : Nat} (hr : r < nR') (hi : i < nPol * nCh) :
    valueOf norm e nPol nCh nAnt A m s r i = valueOf norm e nPol nCh nAnt A m' s' r i := by
  rw [symbolCount_eq] at hs
  have hidx : r * (nPol * nCh) + i < nR' * (nPol * nCh) := flat_lt hr hi
  have hp : i % nPol < nPol := Nat.mod_lt _ (Nat.pos_of_ne_zero (by rintro rfl; simp at hi))
  have hfac : factorOf norm nPol nCh nAnt A m r i = factorOf norm nPol nCh nAnt A m' r i := by
    cases norm with
    | row => exact hm r hr
    | rf =>
      simp only [dataMetaCount, RF.metaDataCount] at hm
      have : r * nPol + i % nPol < nR' * nPol := flat_lt hr hp
      simp only [factorOf]
      rw [hm i (by rw [Nat.mul_add]; omega), hm (nPol * nCh + (r * nPol + i % nPol)) (by
        rw [Nat.mul_add, Nat.mul_comm nPol nR']; omega)]
    | af =>
      simp only [dataMetaCount, AF.metaDataCount] at hm
      obtain ⟨h1, h2⟩ := hA rfl r hr
      simp only [factorOf]
      rw [hm i (by rw [Nat.mul_add]; omega), hm _ (ant_index_lt h1 hp), hm _ (ant_index_lt h2 hp)]
  simp only [valueOf]
  rw [hfac, hs _ (by omega), hs ((r * (nPol * nCh) + i) * 2 + 1) (by omega)]

theorem dataMetaCount_mono (norm : Norm) (h : nR' ≤ nR) :
    dataMetaCount norm nR' nPol nCh nAnt ≤ dataMetaCount norm nR nPol nCh nAnt := by
  cases norm with
  | row => exact h
  | rf => exact Nat.mul_le_mul_left _ (Nat.add_le_add_left h _)
  | af => exact Nat.le_refl _

theorem symbolCount_mono (h : nR' ≤ nR) : symbolCount nR' nPol nCh ≤ symbolCount nR nPol nCh := by
  rw [symbolCount_eq, symbolCount_eq]
  exact Nat.mul_le_mul_right _ (Nat.mul_le_mul_right _ h)

/-- Given fewer rows, the data codec writes what it writes into the buffers of a block of that many rows. -/
theorem dataStarts (norm : Norm) (sq : Fl → Fl) {e : Encoder} {b l : Nat → ℚ} {L : ℚ}
    (hT : Table e b l L) (h : Holds nR' (nPol * nCh) A D data) (hR : 0 < nR') (hle : nR' ≤ nR)
    (hA : norm = .af → 0 < nCh ∧ AF.AntennasBelow nR' nAnt A) (dith : Nat → Nat) (fuel : Nat) :
    (norm = .af ∧ ∀ metaB sym, metaB.len = dataMetaCount norm nR nPol nCh nAnt →
      (∀ j, metaB.len ≤ j → metaB.get j = .nan) → sym.len = symbolCount nR nPol nCh →
      encData norm sq e nPol nCh nAnt dith fuel data metaB sym = some none) ∨
    ∃ metaB' sym', Writes (encData norm sq e nPol nCh nAnt dith fuel data)
        (dataMetaCount norm nR' nPol nCh nAnt) (symbolCount nR' nPol nCh) e.quantCount metaB' sym' ∧
      Starts (encData norm sq e nPol nCh nAnt dith fuel data) (dataMetaCount norm nR nPol nCh nAnt)
        (symbolCount nR nPol nCh) (dataMetaCount norm nR' nPol nCh nAnt) (symbolCount nR' nPol nCh) metaB' sym' := by
  have hq := hT.total Fl.r32 true
  have hms := symbolCount_mono (nPol := nPol) (nCh := nCh) hle
  have hmm := dataMetaCount_mono (nPol := nPol) (nCh := nCh) (nAnt := nAnt) norm hle
  rw [symbolCount_eq, symbolCount_eq] at *
  cases norm with
  | row =>
    right
    rcases dataWrites .row sq hT h hR hA dith fuel with ⟨hn, _⟩ | ⟨metaB', sym', hw⟩
    · cases hn
    rw [symbolCount_eq] at hw
    refine ⟨metaB', sym', hw, ?_⟩
    intro metaB sym hm _ hs
    obtain ⟨m0, s0, a1, _, _, a4, _, _, _, a8⟩ := Row.encode_spec (RF := Fl.r32) (RD := Fl.r64) hq
      (maxLevel := e.maxQuantity) (dith := dith) h ⟨nR', fun _ => .nan⟩ (Nat.le_refl _)
      ⟨nR' * (nPol * nCh) * 2, fun _ => 0⟩ (Nat.le_refl _)
    obtain ⟨m1, s1, c1, _, _, c4, c5⟩ := hw.same ⟨nR', fun _ => .nan⟩ ⟨nR' * (nPol * nCh) * 2, fun _ => 0⟩ rfl
      (fun _ _ => rfl) rfl
    simp only [encData] at c1
    rw [a1] at c1
    injection c1 with c1
    injection c1 with c1
    injection c1 with c1 c2
    subst c1 c2
    have hm : metaB.len = nR := hm
    obtain ⟨m, s, b1, b2, b3, b4, _, _, _, b8⟩ := Row.encode_spec (RF := Fl.r32) (RD := Fl.r64) hq
      (maxLevel := e.maxQuantity) (dith := dith) h metaB (by omega) sym (by omega)
    refine ⟨m, s, by simp only [encData]; rw [b1]; rfl, by rw [b2]; exact hm, by rw [b3, hs], ?_, ?_⟩
    · intro j hj
      rw [← c4 j hj, b4 j hj, a4 j hj]
    · intro j hj
      rw [← c5 j hj]
      exact quantise_unique b8 a8 j hj
  | rf =>
    right
    rcases dataWrites .rf sq hT h hR hA dith fuel with ⟨hn, _⟩ | ⟨metaB', sym', hw⟩
    · cases hn
    rw [symbolCount_eq] at hw
    refine ⟨metaB', sym', hw, ?_⟩
    intro metaB sym hm _ hs
    have hcount : nPol * (nCh + nR') = nPol * nCh + nR' * nPol := by
      rw [Nat.mul_add, Nat.mul_comm nPol nR']
    have hmm : nPol * (nCh + nR') ≤ nPol * (nCh + nR) := hmm
    obtain ⟨m0, s0, a1, _, _, a4, a5, _, _, _, a8⟩ := RF.encode_spec (RF := Fl.r32) (RD := Fl.r64) hq
      (maxLevel := e.maxQuantity) (dith := dith) h ⟨nPol * (nCh + nR'), fun _ => .nan⟩ (by simp only; omega)
      ⟨nR' * (nPol * nCh) * 2, fun _ => 0⟩ (Nat.le_refl _)
    obtain ⟨m1, s1, c1, _, _, c4, c5⟩ := hw.same ⟨nPol * (nCh + nR'), fun _ => .nan⟩
      ⟨nR' * (nPol * nCh) * 2, fun _ => 0⟩ rfl (fun _ _ => rfl) rfl
    simp only [encData] at c1
    rw [a1] at c1
    injection c1 with c1
    injection c1 with c1
    injection c1 with c1 c2
    subst c1 c2
    have hm : metaB.len = nPol * (nCh + nR) := hm
    obtain ⟨m, s, b1, b2, b3, b4, b5, _, _, _, b8⟩ := RF.encode_spec (RF := Fl.r32) (RD := Fl.r64) hq
      (maxLevel := e.maxQuantity) (dith := dith) h metaB (by omega) sym (by omega)
    refine ⟨m, s, by simp only [encData]; rw [b1]; rfl, by rw [b2]; exact hm, by rw [b3, hs], ?_, ?_⟩
    · intro j hj
      rw [← c4 j hj]
      have hj : j < nPol * (nCh + nR') := hj
      by_cases hjl : j < nPol * nCh
      · rw [b4 j hjl, a4 j hjl]
      · have hp : 0 < nPol := Nat.pos_of_ne_zero (by rintro rfl; simp at hj)
        have hr : (j - nPol * nCh) / nPol < nR' := by
          rw [Nat.div_lt_iff_lt_mul hp]
          omega
        have ej : j = nPol * nCh + ((j - nPol * nCh) / nPol * nPol + (j - nPol * nCh) % nPol) := by
          rw [Nat.mul_comm ((j - nPol * nCh) / nPol), Nat.div_add_mod]
          omega
        rw [ej, b5 _ _ hr (Nat.mod_lt _ hp), a5 _ _ hr (Nat.mod_lt _ hp)]
    · intro j hj
      rw [← c5 j hj]
      exact quantise_unique b8 a8 j hj
  | af =>
    obtain ⟨hc, hant⟩ := hA rfl
    rcases AF.encode_layout (RD := Fl.r64) (sq := sq) hq (maxLevel := e.maxQuantity) hc h hant hR dith fuel with
      h1 | ⟨m', s', a1, a2, a3, a4, a5⟩
    · exact Or.inl ⟨rfl, fun metaB sym hm hn hs => h1 metaB sym hm hn (by omega)⟩
    · right
      refine ⟨m', s', ⟨a1, a2, a3, a4, ?_⟩, ?_⟩
      · intro metaB sym hm hn hs
        obtain ⟨s, e1, l1, g1⟩ := a5 metaB sym hm (fun j hj => hn j (by rw [← hm]; exact hj))
          (Nat.le_of_eq hs.symm)
        exact ⟨m', s, e1, a1, by rw [l1, hs], fun _ _ => rfl, g1⟩
      · intro metaB sym hm hn hs
        obtain ⟨s, e1, l1, g1⟩ := a5 metaB sym hm (fun j hj => hn j (by rw [← hm]; exact hj)) (by omega)
        exact ⟨m', s, e1, a1, by rw [l1, hs], fun _ _ => rfl, g1⟩

/-- **C117** for data. A block of `nR'` rows in a column with blocks of `nR ≥ nR'` rows, with every normalisation,
supported bit count and old contents of the buffers: either the encoder does not end (only with antenna-frequency
normalisation), or a block of the size of `nR` rows is written, and reading it (with antennas below the antenna count
for all `nR` rows) succeeds and gives for each of the `nR'` rows the values of the floats and symbols that the encoder
gives for a block of exactly those rows. -/
theorem data_incomplete (norm : Norm) (sq : Fl → Fl) {e : Encoder} {b l : Nat → ℚ} {L : ℚ}
    (hT : Table e b l L) {bits : Nat} (hb : Supported bits) (hq : e.quantCount = 2 ^ bits)
    (h : Holds nR' (nPol * nCh) A D data) (hR : 0 < nR') (hle : nR' ≤ nR)
    (hA : norm = .af → 0 < nCh ∧ AF.AntennasBelow nR nAnt A) (dith : Nat → Nat) (fuel : Nat) :
    (norm = .af ∧ ∀ packed unpacked,
      packed.len = blockSize (dataMetaCount norm nR nPol nCh nAnt) (symbolCount nR nPol nCh) bits →
      unpacked.len = symbolCount nR nPol nCh →
      writeBlock (encData norm sq e nPol nCh nAnt dith fuel data) bits
        (dataMetaCount norm nR nPol nCh nAnt) (symbolCount nR nPol nCh) packed unpacked = .hang) ∨
    ∃ (metaB' : Buf Fl) (sym' : Buf Nat),
      Writes (encData norm sq e nPol nCh nAnt dith fuel data)
        (dataMetaCount norm nR' nPol nCh nAnt) (symbolCount nR' nPol nCh) (2 ^ bits) metaB' sym' ∧
      ∀ packed unpacked,
        packed.len = blockSize (dataMetaCount norm nR nPol nCh nAnt) (symbolCount nR nPol nCh) bits →
        unpacked.len = symbolCount nR nPol nCh →
        ∃ blk, writeBlock (encData norm sq e nPol nCh nAnt dith fuel data) bits
            (dataMetaCount norm nR nPol nCh nAnt) (symbolCount nR nPol nCh) packed unpacked = .ok blk ∧
          blk.len = 4 * dataMetaCount norm nR nPol nCh nAnt + (symbolCount nR nPol nCh * bits + 7) / 8 ∧
          ∀ dflt (out : Buf Nat) rows, out.len = symbolCount nR nPol nCh →
            ∃ rows', readBlock (decData norm e nPol nCh nAnt A) bits (dataMetaCount norm nR nPol nCh nAnt)
                (symbolCount nR nPol nCh) nR dflt blk out rows = .ok rows' ∧ rows'.len = nR ∧
              ∀ r, r < nR → (rows'.get r).vis.len = nPol * nCh ∧ (r < nR' → ∀ i, i < nPol * nCh →
                (rows'.get r).vis.get i = valueOf norm e nPol nCh nAnt A metaB' sym' r i) := by
  have hA' : norm = .af → 0 < nCh ∧ AF.AntennasBelow nR' nAnt A := fun hn =>
    ⟨(hA hn).1, fun r hr => (hA hn).2 r (by omega)⟩
  rcases dataStarts norm sq hT h hR hle hA' dith fuel with ⟨hn, h1⟩ | ⟨metaB', sym', hw, hst⟩
  · left
    refine ⟨hn, ?_⟩
    intro packed unpacked hp hu
    unfold writeBlock
    rw [if_neg (by unfold blockSize at hp; omega), h1 _ _ rfl (fun j hj => if_neg (not_lt.mpr hj)) hu]
  · right
    rw [hq] at hw
    refine ⟨metaB', sym', hw, ?_⟩
    intro packed unpacked hp hu
    obtain ⟨blk, e1, l1, g1, g2⟩ := writeBlock_starts hb (dataMetaCount_mono norm hle) (symbolCount_mono hle)
      hw.floats hw.below hst packed unpacked hp hu
    refine ⟨blk, e1, by rw [l1]; rfl, ?_⟩
    intro dflt out rows ho
    have hr := dataReads (nPol := nPol) (nCh := nCh) norm hT (fun hn => (hA hn).2)
    rw [hq] at hr
    exact readBlock_starts hr (fun m s hm hs r i hr hi => valueOf_congr norm e (fun hn => (hA' hn).2) hm hs hr hi)
      l1 g1 g2 dflt out ho rows

theorem blockMax_le {nRows : Nat} {m : Nat → Nat → ℚ} {M M' : ℚ} (hA : Weight.IsBlockMax nRows nCh m M)
    (hB : Weight.IsBlockMax nRows nCh m M') : M ≤ M' := by
  rcases hA.2 with ⟨_, r, c, hr, hc, e⟩ | ⟨e, hz⟩
  · rw [← e]; exact hB.1 r c hr hc
  · rcases hB.2 with ⟨_, r, c, hr, hc, e'⟩ | ⟨e', _⟩
    · have := hz r c hr hc
      rw [e'] at this
      linarith
    · rw [e, e']

/-- Given fewer rows, the weight codec writes what it writes into the buffers of a block of that many rows. -/
theorem weightStarts {bits : Nat} (hp : 1 ≤ nPol) {rows : Block Fl}
    {W : Nat → Nat → Nat → ℚ} (hW : Weight.HoldsWeights nPol nCh rows W) {m : Nat → Nat → ℚ}
    (hm : ∀ r c, r < rows.len → c < nCh → Weight.IsMin nPol (W r c) (m r c)) {M : ℚ} {sym' : Buf Nat}
    (hM : Weight.IsBlockMax rows.len nCh m M)
    (henc : ∀ r c, r < rows.len → c < nCh →
      Weight.encodeSample Fl.r32 Fl.r64 (2 ^ bits) (.fin M) (.fin (m r c)) = some (sym'.get (r * nCh + c)))
    (hle : rows.len ≤ nR) :
    Starts (encWeight nPol nCh bits rows) Weight.metaDataFloatCount (Weight.symbolCount nR nCh)
      Weight.metaDataFloatCount (Weight.symbolCount rows.len nCh) ⟨1, fun _ => .fin M⟩ sym' := by
  obtain ⟨mx, M', e1, e2, hM'⟩ := Weight.maxLoop_spec hp hW hm
  have hMM : M' = M := le_antisymm (blockMax_le hM' hM) (blockMax_le hM hM')
  subst hMM
  intro metaB sym hml _ hs
  have hml : metaB.len = 1 := hml
  have hs : sym.len = nR * nCh := hs
  have hlen : rows.len * nCh ≤ nR * nCh := Nat.mul_le_mul_right _ hle
  obtain ⟨st, e3, h1, h2, _⟩ := Weight.encode_loop (RF := Fl.r32) (RD := Fl.r64) (q := 2 ^ bits)
    (mx := .fin M') (f := fun r c => sym'.get (r * nCh + c)) hp hW hm henc sym (by omega)
  refine ⟨⟨metaB.len, fun j => if j = 0 then .fin M' else metaB.get j⟩, st.1, ?_, hml, by rw [h1]; exact hs, ?_, ?_⟩
  · unfold encWeight Weight.encode
    rw [e1, Option.bind_some, e2, Buf.wr_some (by omega), Option.bind_some, e3]
    rfl
  · intro j hj
    have : j = 0 := Nat.lt_one_iff.mp hj
    simp only [this, if_true]
  · intro j hj
    have hj : j < rows.len * nCh := hj
    have hc : 0 < nCh := Nat.pos_of_ne_zero (by rintro rfl; simp at hj)
    have ej : j = j / nCh * nCh + j % nCh := by rw [Nat.mul_comm, Nat.div_add_mod]
    rw [ej]
    exact h2 _ _ ((Nat.div_lt_iff_lt_mul hc).mpr hj) (Nat.mod_lt _ hc)

/-- **C117** for weights. -/
theorem weight_incomplete {bits : Nat} (hb : Supported bits) (hp : 1 ≤ nPol) (hc : 0 < nCh)
    {rows : Block Fl} {W : Nat → Nat → Nat → ℚ} (hW : Weight.HoldsWeights nPol nCh rows W)
    (hF : Weight.FloatWeights rows.len nCh nPol W) {m : Nat → Nat → ℚ}
    (hm : ∀ r c, r < rows.len → c < nCh → Weight.IsMin nPol (W r c) (m r c)) (hle : rows.len ≤ nR) :
    ∃ (M : ℚ) (sym' : Buf Nat), Weight.IsBlockMax rows.len nCh m M ∧
      Writes (encWeight nPol nCh bits rows) Weight.metaDataFloatCount
        (Weight.symbolCount rows.len nCh) (2 ^ bits) ⟨1, fun _ => .fin M⟩ sym' ∧
      (∀ r c, r < rows.len → c < nCh →
        Weight.encodeSample Fl.r32 Fl.r64 (2 ^ bits) (.fin M) (.fin (m r c)) =
          some (sym'.get (r * nCh + c))) ∧
      ∀ packed unpacked,
        packed.len = blockSize Weight.metaDataFloatCount (Weight.symbolCount nR nCh) bits →
        unpacked.len = Weight.symbolCount nR nCh →
        ∃ blk, writeBlock (encWeight nPol nCh bits rows) bits Weight.metaDataFloatCount
            (Weight.symbolCount nR nCh) packed unpacked = .ok blk ∧
          blk.len = 4 * 1 + (nR * nCh * bits + 7) / 8 ∧
          ∀ dflt (out : Buf Nat) dest, out.len = Weight.symbolCount nR nCh →
            ∃ rows', readBlock (decWeight nPol nCh bits) bits Weight.metaDataFloatCount
                (Weight.symbolCount nR nCh) nR dflt blk out dest = .ok rows' ∧ rows'.len = nR ∧
              ∀ r, r < nR → (rows'.get r).vis.len = nCh * nPol ∧ (r < rows.len → ∀ i, i < nCh * nPol →
                (rows'.get r).vis.get i =
                  Weight.decodeSample Fl.r32 Fl.r64 (2 ^ bits) (.fin M) (sym'.get (r * nCh + i / nPol))) := by
  obtain ⟨M, sym', hM, hw, henc⟩ := weightWrites hb hp hW hF hm
  refine ⟨M, sym', hM, hw, henc, ?_⟩
  intro packed unpacked hpk hu
  obtain ⟨blk, e1, l1, g1, g2⟩ := writeBlock_starts hb (Nat.le_refl _)
    (show Weight.symbolCount rows.len nCh ≤ Weight.symbolCount nR nCh from Nat.mul_le_mul_right _ hle)
    hw.floats hw.below (weightStarts hp hW hm hM henc hle) packed unpacked hpk hu
  refine ⟨blk, e1, by rw [l1]; rfl, ?_⟩
  intro dflt out dest ho
  refine readBlock_starts (weightReads hc) ?_ l1 g1 g2 dflt out ho dest
  intro m s hm hs r i hr hi
  rw [hm 0 (by decide), hs _ (flat_lt hr ((Nat.div_lt_iff_lt_mul hp).mpr hi))]

/-- The hypotheses hold for one row with flagged values in a column with blocks of two rows. -/
example (norm : Norm) : Table Row.smallTable
      (fun i => if i = 0 then -1 / 2 else if i = 1 then 1 / 2 else fltMax) (fun k => (k : ℚ) - 1) 1 ∧
    Supported 2 ∧ Row.smallTable.quantCount = 2 ^ 2 ∧
    Holds 1 (1 * 3) (fun r => (r, r + 1)) (fun _ => Row.sampleVis)
      ⟨1, fun r => ⟨r, r + 1, ⟨3, Row.sampleVis⟩⟩⟩ ∧
    (norm = .af → 0 < 3 ∧ AF.AntennasBelow 2 3 (fun r => (r, r + 1))) :=
  ⟨Row.smallTable_ok, Or.inl rfl, rfl,
    ⟨rfl, fun _ _ => rfl, fun _ _ => rfl, fun _ _ _ _ => rfl⟩,
    fun _ => ⟨by decide, fun r hr => ⟨by show r < 3; omega, by show r + 1 < 3; omega⟩⟩⟩

end Dysco.Layout
