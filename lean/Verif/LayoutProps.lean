import Verif.LayoutModel
import Verif.AFLayout
import Verif.AFProps
import Verif.RFProps
import Verif.RowProps
import Verif.WeightProps
import Verif.BytePackerProps

/-! # C28: the block layout -/

namespace Dysco.Layout
open BytePacker TimeBlock Stochastic

/-- For every buffer of the announced size, with any contents, the codec writes the announced number of
floats and symbols, always the same. -/
structure Writes (enc : Buf Fl → Buf Nat → Option (Option (Buf Fl × Buf Nat))) (nMeta nSym q : Nat)
    (metaB' : Buf Fl) (sym' : Buf Nat) : Prop where
  metaLen : metaB'.len = nMeta
  floats : ∀ j, j < nMeta → Fl.IsFloat (metaB'.get j)
  symLen : sym'.len = nSym
  below : ∀ j, j < nSym → sym'.get j < q
  same : ∀ metaB sym, metaB.len = nMeta → (∀ j, nMeta ≤ j → metaB.get j = .nan) → sym.len = nSym →
    ∃ m s, enc metaB sym = some (some (m, s)) ∧ m.len = nMeta ∧ s.len = nSym ∧
      (∀ j, j < nMeta → m.get j = metaB'.get j) ∧ ∀ j, j < nSym → s.get j = sym'.get j

/-- Decoding row `r` reads only announced entries, changes no other row and gives the values `V`. -/
structure Reads {α : Type} (dec : Buf Fl → Buf Nat → Nat → Block α → Option (Block α))
    (nMeta nSym q nRow n : Nat) (V : Buf Fl → Buf Nat → Nat → Nat → α) : Prop where
  row : ∀ metaB sym rows r, metaB.len = nMeta → sym.len = nSym → (∀ j, j < nSym → sym.get j < q) →
    r < nRow → r < rows.len → ∃ rows', dec metaB sym r rows = some rows' ∧ rows'.len = rows.len ∧
      (∀ j, j ≠ r → rows'.get j = rows.get j) ∧ (rows'.get r).vis.len = n ∧
      ∀ i, i < n → (rows'.get r).vis.get i = V metaB sym r i
  congr : ∀ m1 m2 s1 s2, m1.len = nMeta → m2.len = nMeta → s1.len = nSym → s2.len = nSym →
    (∀ j, j < nMeta → m1.get j = m2.get j) → (∀ j, j < nSym → s1.get j = s2.get j) →
    ∀ r i, r < nRow → i < n → V m1 s1 r i = V m2 s2 r i

/-! ## Bytes -/

theorem bytes4 {b : Nat} (h : b < 2 ^ 32) :
    b / 2 ^ 0 % 256 + 2 ^ 8 * (b / 2 ^ 8 % 256) + 2 ^ 16 * (b / 2 ^ 16 % 256) +
      2 ^ 24 * (b / 2 ^ 24 % 256) = b := by omega

theorem le32_storeMeta {metaB : Buf Fl} {packed : Mem 8} {i : Nat} (hi : i < metaB.len)
    (hf : Fl.IsFloat (metaB.get i)) :
    le32 (storeMeta metaB packed) (4 * i) = Fl.toBits (metaB.get i) := by
  have h : ∀ k, k < 4 → ((storeMeta metaB packed).get (4 * i + k)).toNat =
      Fl.toBits (metaB.get i) / 2 ^ (8 * k) % 256 := by
    intro k hk
    have e1 : (4 * i + k) / 4 = i := by omega
    have e2 : (4 * i + k) % 4 = k := by omega
    unfold storeMeta
    simp only
    rw [if_pos (by omega), e1, e2, BitVec.toNat_ofNat]
  unfold le32
  have h0 := h 0 (by omega)
  rw [Nat.add_zero] at h0
  rw [h0, h 1 (by omega), h 2 (by omega), h 3 (by omega)]
  exact bytes4 (Fl.toBits_lt hf)

/-- Everything about a written block: the bytes do not depend on the old buffers, and reading it back gives
the metadata and symbols of the codec. -/
theorem writeBlock_spec {enc : Buf Fl → Buf Nat → Option (Option (Buf Fl × Buf Nat))}
    {bits nMeta nSym : Nat} (hb : Supported bits) {metaB' : Buf Fl} {sym' : Buf Nat}
    (h : Writes enc nMeta nSym (2 ^ bits) metaB' sym') :
    ∃ blk : Mem 8, blk.len = blockSize nMeta nSym bits ∧
      (∀ packed unpacked, packed.len = blockSize nMeta nSym bits → unpacked.len = nSym →
        ∃ m, writeBlock enc bits nMeta nSym packed unpacked = .ok m ∧ m.len = blk.len ∧
          ∀ j, j < blk.len → m.get j = blk.get j) ∧
      (∀ j, j < nMeta → (metaView nMeta blk).get j = metaB'.get j) ∧
      ∀ out : Buf Nat, out.len = nSym → ∃ s, unpack bits (symMem out) (tail (4 * nMeta) blk) nSym = .ok s ∧
        s.len = nSym ∧ ∀ j, j < nSym → (s.get j).toNat = sym'.get j := by
  have hb16 : bits ≤ 16 := by unfold Supported at hb; omega
  have hsz : ∀ k, k < 2 ^ bits → k < 2 ^ 32 := fun k hk =>
    lt_of_lt_of_le hk (Nat.pow_le_pow_right (by decide) (by omega))
  -- one run
  have hrun : ∀ packed unpacked, packed.len = blockSize nMeta nSym bits → unpacked.len = nSym →
      ∃ m s bin, writeBlock enc bits nMeta nSym packed unpacked = .ok ⟨blockSize nMeta nSym bits,
          fun j => if j < 4 * nMeta then (storeMeta m packed).get j else bin.get (j - 4 * nMeta)⟩ ∧
        m.len = nMeta ∧ s.len = nSym ∧ (∀ j, j < nMeta → m.get j = metaB'.get j) ∧
        (∀ j, j < nSym → s.get j = sym'.get j) ∧
        HoldsPacked bits nSym (symMem s).get (tail (4 * nMeta) (storeMeta m packed)) bin := by
    intro packed unpacked hp hu
    obtain ⟨m, s, e, l1, l2, g1, g2⟩ := h.same (metaView nMeta packed) unpacked rfl
      (fun j hj => if_neg (by omega)) hu
    have hlt : ∀ i, i < nSym → ((symMem s).get i).toNat < 2 ^ bits := by
      intro i hi
      have := h.below i hi
      simp only [symMem]
      rw [BitVec.toNat_ofNat, g2 i hi, Nat.mod_eq_of_lt (hsz _ this)]
      exact this
    obtain ⟨bin, e2, hbin⟩ := pack_stream bits nSym (symMem s) (tail (4 * nMeta) (storeMeta m packed)) hb
      hlt (by simp only [symMem]; omega)
      (by simp only [tail, storeMeta]; unfold blockSize at hp; omega)
    refine ⟨m, s, bin, ?_, l1, l2, g1, g2, hbin⟩
    unfold writeBlock
    rw [if_neg (by unfold blockSize at hp; omega), e]
    simp only
    rw [e2]
    simp only
    rw [if_neg (by omega)]
  obtain ⟨m0, s0, bin0, e0, l1, l2, g1, g2, hb0⟩ :=
    hrun ⟨blockSize nMeta nSym bits, fun _ => 0⟩ ⟨nSym, fun _ => 0⟩ rfl rfl
  refine ⟨⟨blockSize nMeta nSym bits, fun j => if j < 4 * nMeta then
    (storeMeta m0 ⟨blockSize nMeta nSym bits, fun _ => 0⟩).get j else bin0.get (j - 4 * nMeta)⟩, rfl, ?_,
    ?_, ?_⟩
  · intro packed unpacked hp hu
    obtain ⟨m, s, bin, e, k1, k2, f1, f2, hbin⟩ := hrun packed unpacked hp hu
    refine ⟨_, e, rfl, ?_⟩
    intro j hj
    simp only at hj ⊢
    split
    · simp only [storeMeta, k1, l1]
      rw [if_pos (by omega), if_pos (by omega), f1 _ (by omega), g1 _ (by omega)]
    · apply BitVec.eq_of_getLsbD_eq
      intro t ht
      have hc : j - 4 * nMeta < bytesFor (nSym * bits) := by
        rw [← bufferSize_eq]; unfold blockSize at hj; omega
      rw [hbin.2.1 _ hc t ht, hb0.2.1 _ hc t ht]
      have hsym : ∀ i, i < nSym → (symMem s).get i = (symMem s0).get i := by
        intro i hi
        simp only [symMem]
        rw [f2 i hi, g2 i hi]
      unfold specBit
      split
      · rename_i hlt
        rw [hsym _ ((Nat.div_lt_iff_lt_mul (by unfold Supported at hb; omega)).mpr hlt)]
      · rfl
  · intro j hj
    have hv : le32 (⟨blockSize nMeta nSym bits, fun j => if j < 4 * nMeta then
        (storeMeta m0 ⟨blockSize nMeta nSym bits, fun _ => 0⟩).get j else bin0.get (j - 4 * nMeta)⟩)
        (4 * j) = le32 (storeMeta m0 ⟨blockSize nMeta nSym bits, fun _ => 0⟩) (4 * j) := by
      unfold le32
      simp only
      rw [if_pos (by omega), if_pos (by omega), if_pos (by omega), if_pos (by omega)]
    have hf : Fl.IsFloat (m0.get j) := by rw [g1 j hj]; exact h.floats j hj
    unfold metaView
    simp only
    rw [if_pos hj, hv, le32_storeMeta (by omega) hf, Fl.ofBits_toBits hf, g1 j hj]
  · intro out ho
    have hpk : HoldsPacked bits nSym (symMem s0).get (tail (4 * nMeta)
        (storeMeta m0 ⟨blockSize nMeta nSym bits, fun _ => 0⟩)) (tail (4 * nMeta)
        ⟨blockSize nMeta nSym bits, fun j => if j < 4 * nMeta then
          (storeMeta m0 ⟨blockSize nMeta nSym bits, fun _ => 0⟩).get j else bin0.get (j - 4 * nMeta)⟩) := by
      refine ⟨by simp [tail, storeMeta], ?_, ?_⟩
      · intro c hc t ht
        have := hb0.2.1 c hc t ht
        simp only [tail]
        rw [if_neg (by omega), Nat.add_sub_cancel_left]
        exact this
      · intro c hc
        simp only [tail]
        rw [if_neg (by omega), Nat.add_sub_cancel_left]
        exact hb0.2.2 c hc
    obtain ⟨s, e, hs⟩ := unpack_stream bits nSym (symMem out) (tail (4 * nMeta)
      ⟨blockSize nMeta nSym bits, fun j => if j < 4 * nMeta then
        (storeMeta m0 ⟨blockSize nMeta nSym bits, fun _ => 0⟩).get j else bin0.get (j - 4 * nMeta)⟩) hb
      (by simp only [symMem]; omega) (by simp only [tail, blockSize]; omega)
    have hlt : ∀ i, i < nSym → ((symMem s0).get i).toNat < 2 ^ bits := by
      intro i hi
      have := h.below i hi
      simp only [symMem]
      rw [BitVec.toNat_ofNat, g2 i hi, Nat.mod_eq_of_lt (hsz _ this)]
      exact this
    refine ⟨s, e, by rw [hs.1]; exact ho, ?_⟩
    intro j hj
    rw [unpacked_of_packed (by unfold Supported at hb; omega) hlt hpk hs j hj]
    simp only [symMem]
    rw [BitVec.toNat_ofNat, g2 j hj, Nat.mod_eq_of_lt (hsz _ (h.below j hj))]

/-- Reading the block: every row has the values of the metadata and symbols that were written; nothing
outside the block is read. -/
theorem readBlock_spec {α : Type} {dec : Buf Fl → Buf Nat → Nat → Block α → Option (Block α)}
    {bits nMeta nSym nRow n : Nat} {V : Buf Fl → Buf Nat → Nat → Nat → α}
    (h : Reads dec nMeta nSym (2 ^ bits) nRow n V) {metaB' : Buf Fl} {sym' : Buf Nat}
    (hm : metaB'.len = nMeta) (hs : sym'.len = nSym) (hlt : ∀ j, j < nSym → sym'.get j < 2 ^ bits)
    {packed : Mem 8} (hlen : packed.len = blockSize nMeta nSym bits)
    (hmv : ∀ j, j < nMeta → (metaView nMeta packed).get j = metaB'.get j)
    (hun : ∀ out : Buf Nat, out.len = nSym →
      ∃ s, unpack bits (symMem out) (tail (4 * nMeta) packed) nSym = .ok s ∧
        s.len = nSym ∧ ∀ j, j < nSym → (s.get j).toNat = sym'.get j)
    (dflt : DataRow α) (out : Buf Nat) (ho : out.len = nSym) (rows : Block α) :
    ∃ rows', readBlock dec bits nMeta nSym nRow dflt packed out rows = .ok rows' ∧ rows'.len = nRow ∧
      ∀ r, r < nRow → (rows'.get r).vis.len = n ∧
        ∀ i, i < n → (rows'.get r).vis.get i = V metaB' sym' r i := by
  obtain ⟨s, e, ls, gs⟩ := hun out ho
  obtain ⟨rows', e2, l2, g2⟩ := forRange_inv nRow
    (fun r rows => dec (metaView nMeta packed) (symBuf s) r rows) (rows.resize nRow dflt)
    (fun k rows' => rows'.len = nRow ∧ ∀ r, r < k → (rows'.get r).vis.len = n ∧
        ∀ i, i < n → (rows'.get r).vis.get i = V metaB' sym' r i)
    ⟨rfl, fun _ hr => by omega⟩ (by
      rintro k rows1 hk ⟨a1, a2⟩
      obtain ⟨rows2, e, b1, b2, b3, b4⟩ := h.row (metaView nMeta packed) (symBuf s) rows1 k rfl ls
        (fun j hj => by simp only [symBuf]; rw [gs j hj]; exact hlt j hj) hk (by omega)
      refine ⟨rows2, e, by omega, ?_⟩
      intro r hr
      by_cases hrk : r = k
      · subst hrk
        refine ⟨b3, fun i hi => ?_⟩
        rw [b4 i hi]
        exact h.congr _ _ _ _ rfl hm ls hs hmv gs r i hk hi
      · rw [b2 r hrk]
        exact a2 r (by omega))
  refine ⟨rows', ?_, l2, g2⟩
  unfold readBlock
  rw [if_neg (by unfold blockSize at hlen; omega), e]
  simp only
  rw [e2]

/-! ## The codecs -/

variable {nR nPol nCh nAnt : Nat} {A : Nat → Nat × Nat} {D : Nat → Nat → Cx} {data : Block Cx}

/-- The factor of a visibility as the decoder of the normalisation computes it. -/
def factorOf (norm : Norm) (nPol nCh nAnt : Nat) (A : Nat → Nat × Nat) (metaB : Buf Fl) (r i : Nat) : Fl :=
  match norm with
  | .row => metaB.get r
  | .rf => Fl.mul Fl.r64 (metaB.get i) (metaB.get (nPol * nCh + (r * nPol + i % nPol)))
  | .af => Fl.mul Fl.r64 (metaB.get i)
      (Fl.mul Fl.r64 (metaB.get (nPol * nCh + (nAnt * (i % nPol) + (A r).1)))
        (metaB.get (nPol * nCh + (nAnt * (i % nPol) + (A r).2))))

/-- The decoded visibility. -/
def valueOf (norm : Norm) (e : Encoder) (nPol nCh nAnt : Nat) (A : Nat → Nat × Nat) (metaB : Buf Fl)
    (sym : Buf Nat) (r i : Nat) : Cx :=
  ⟨Fl.cast Fl.r32 (Fl.mul Fl.r64 (e.level (sym.get ((r * (nPol * nCh) + i) * 2)))
      (factorOf norm nPol nCh nAnt A metaB r i)),
   Fl.cast Fl.r32 (Fl.mul Fl.r64 (e.level (sym.get ((r * (nPol * nCh) + i) * 2 + 1)))
      (factorOf norm nPol nCh nAnt A metaB r i))⟩

theorem symbolCount_eq : symbolCount nR nPol nCh = nR * (nPol * nCh) * 2 := by
  unfold symbolCount
  rw [Nat.mul_assoc nR, Nat.mul_comm nCh]

theorem ant_index_lt {a p : Nat} (ha : a < nAnt) (hp : p < nPol) :
    nPol * nCh + (nAnt * p + a) < nPol * (nCh + nAnt) := by
  have : p * nAnt + a < nPol * nAnt := flat_lt hp ha
  rw [Nat.mul_comm nAnt p, Nat.mul_add]
  omega

theorem dataReads (norm : Norm) {e : Encoder} {b l : Nat → ℚ} {L : ℚ} (hT : Table e b l L)
    (hA : norm = .af → AF.AntennasBelow nR nAnt A) :
    Reads (decData norm e nPol nCh nAnt A) (dataMetaCount norm nR nPol nCh nAnt)
      (symbolCount nR nPol nCh) e.quantCount nR (nPol * nCh) (valueOf norm e nPol nCh nAnt A) := by
  rw [symbolCount_eq]
  constructor
  · intro metaB sym rows r hm hs hq hr hd
    have hrow : (r * (nPol * nCh) + nPol * nCh) * 2 ≤ nR * (nPol * nCh) * 2 := by
      have : (r + 1) * (nPol * nCh) ≤ nR * (nPol * nCh) := Nat.mul_le_mul_right _ hr
      rw [Nat.add_mul, Nat.one_mul] at this
      omega
    cases norm with
    | row =>
      have hm : metaB.len = nR := hm
      obtain ⟨d, e1, d1, d2, _, _, d5, d6⟩ := Row.decode_spec (RF := Fl.r32) (RD := Fl.r64) (nPol := nPol) (nCh := nCh) hT metaB
        sym rows r (A r).1 (A r).2 hd (by omega) (by omega) (fun j hj => hq j (by omega))
      exact ⟨d, e1, d1, d2, d5, d6⟩
    | rf =>
      have hm : metaB.len = nPol * (nCh + nR) := hm
      obtain ⟨d, e1, d1, d2, _, _, d5, d6⟩ := RF.decode_spec (RF := Fl.r32) (RD := Fl.r64) (nPol := nPol) (nCh := nCh) hT metaB
        sym rows r (A r).1 (A r).2 hd (by
          have : (r + 1) * nPol ≤ nR * nPol := Nat.mul_le_mul_right _ hr
          rw [hm, Nat.mul_add, Nat.mul_comm nPol nR]
          omega) (by omega) (fun j hj => hq j (by omega))
      exact ⟨d, e1, d1, d2, d5, d6⟩
    | af =>
      have hm : metaB.len = nPol * (nCh + nAnt) := hm
      obtain ⟨d, e1, d1, d2, _, _, d5, d6⟩ := AF.decode_spec (RF := Fl.r32) (RD := Fl.r64) (nPol := nPol) (nCh := nCh) hT metaB
        sym rows r (A r).1 (A r).2 hd (hA rfl r hr).1 (hA rfl r hr).2 (by
          rw [hm, Nat.mul_add, Nat.mul_comm nPol nAnt]) (by omega) (fun j hj => hq j (by omega))
      exact ⟨d, e1, d1, d2, d5, d6⟩
  · intro m1 m2 s1 s2 _ _ _ _ hm hs r i hr hi
    have hidx : r * (nPol * nCh) + i < nR * (nPol * nCh) := flat_lt hr hi
    have hp : i % nPol < nPol := Nat.mod_lt _ (Nat.pos_of_ne_zero (by rintro rfl; simp at hi))
    have hfac : factorOf norm nPol nCh nAnt A m1 r i = factorOf norm nPol nCh nAnt A m2 r i := by
      cases norm with
      | row => exact hm r hr
      | rf =>
        simp only [dataMetaCount, RF.metaDataCount] at hm
        have : r * nPol + i % nPol < nR * nPol := flat_lt hr hp
        simp only [factorOf]
        rw [hm i (by rw [Nat.mul_add]; omega), hm (nPol * nCh + (r * nPol + i % nPol)) (by
          rw [Nat.mul_add, Nat.mul_comm nPol nR]; omega)]
      | af =>
        simp only [dataMetaCount, AF.metaDataCount] at hm
        obtain ⟨h1, h2⟩ := hA rfl r hr
        simp only [factorOf]
        rw [hm i (by rw [Nat.mul_add]; omega), hm _ (ant_index_lt h1 hp), hm _ (ant_index_lt h2 hp)]
    simp only [valueOf]
    rw [hfac, hs _ (by omega), hs ((r * (nPol * nCh) + i) * 2 + 1) (by omega)]

/-- The data codec either does not end (only with antenna-frequency normalisation) or writes the announced
layout. -/
theorem dataWrites (norm : Norm) (sq : Fl → Fl) {e : Encoder} {b l : Nat → ℚ} {L : ℚ}
    (hT : Table e b l L) (h : Holds nR (nPol * nCh) A D data) (hR : 0 < nR)
    (hA : norm = .af → 0 < nCh ∧ AF.AntennasBelow nR nAnt A) (dith : Nat → Nat) (fuel : Nat) :
    (norm = .af ∧ ∀ metaB sym, metaB.len = dataMetaCount norm nR nPol nCh nAnt →
      (∀ j, metaB.len ≤ j → metaB.get j = .nan) → sym.len = symbolCount nR nPol nCh →
      encData norm sq e nPol nCh nAnt dith fuel data metaB sym = some none) ∨
    ∃ metaB' sym', Writes (encData norm sq e nPol nCh nAnt dith fuel data)
      (dataMetaCount norm nR nPol nCh nAnt) (symbolCount nR nPol nCh) e.quantCount metaB' sym' := by
  rw [symbolCount_eq]
  have hq := hT.total Fl.r32 true
  cases norm with
  | row =>
    right
    obtain ⟨m', s', _, a2, a3, a4, _, a6, _, a8⟩ := Row.encode_spec (RF := Fl.r32) (RD := Fl.r64) hq
      (maxLevel := e.maxQuantity) (dith := dith) h ⟨nR, fun _ => .nan⟩ (Nat.le_refl _)
      ⟨nR * (nPol * nCh) * 2, fun _ => 0⟩ (Nat.le_refl _)
    refine ⟨m', s', a2, fun j hj => ?_, a3, a6, ?_⟩
    · rw [a4 j hj]; exact Fl.isFloat_cast _
    · intro metaB sym hm _ hs
      have hm : metaB.len = nR := hm
      obtain ⟨m, s, b1, b2, b3, b4, _, b6, _, b8⟩ := Row.encode_spec (RF := Fl.r32) (RD := Fl.r64) hq
        (maxLevel := e.maxQuantity) (dith := dith) h metaB (by omega) sym (by omega)
      refine ⟨m, s, by simp only [encData]; rw [b1]; rfl, by rw [b2]; exact hm, by rw [b3, hs], ?_, ?_⟩
      · intro j hj
        rw [b4 j hj, a4 j hj]
      · exact quantise_unique b8 a8
  | rf =>
    right
    have hcount : nPol * (nCh + nR) = nPol * nCh + nR * nPol := by
      rw [Nat.mul_add, Nat.mul_comm nPol nR]
    obtain ⟨m', s', _, a2, a3, a4, a5, _, a6, _, a8⟩ := RF.encode_spec (RF := Fl.r32) (RD := Fl.r64) hq
      (maxLevel := e.maxQuantity) (dith := dith) h ⟨nPol * (nCh + nR), fun _ => .nan⟩
      (by simp only; omega)
      ⟨nR * (nPol * nCh) * 2, fun _ => 0⟩ (Nat.le_refl _)
    have hval : ∀ (m : Buf Fl) j, j < nPol * (nCh + nR) → j < nPol * nCh ∨
        ∃ r p, r < nR ∧ p < nPol ∧ j = nPol * nCh + (r * nPol + p) := by
      intro m j hj
      by_cases hjl : j < nPol * nCh
      · exact Or.inl hjl
      · right
        have hp : 0 < nPol := Nat.pos_of_ne_zero (by rintro rfl; simp at hj)
        refine ⟨(j - nPol * nCh) / nPol, (j - nPol * nCh) % nPol, ?_, Nat.mod_lt _ hp, ?_⟩
        · rw [Nat.div_lt_iff_lt_mul hp]
          omega
        · rw [Nat.mul_comm ((j - nPol * nCh) / nPol), Nat.div_add_mod]
          omega
    refine ⟨m', s', a2, fun j hj => ?_, a3, a6, ?_⟩
    · rcases hval m' j hj with hj | ⟨r, p, hr, hp, rfl⟩
      · rw [a4 j hj]; exact Fl.isFloat_cast _
      · rw [a5 r p hr hp]; exact Fl.isFloat_cast _
    · intro metaB sym hm _ hs
      have hm : metaB.len = nPol * (nCh + nR) := hm
      obtain ⟨m, s, b1, b2, b3, b4, b5, _, b6, _, b8⟩ := RF.encode_spec (RF := Fl.r32) (RD := Fl.r64) hq
        (maxLevel := e.maxQuantity) (dith := dith) h metaB (by omega) sym (by omega)
      refine ⟨m, s, by simp only [encData]; rw [b1]; rfl, by rw [b2]; exact hm, by rw [b3, hs], ?_, ?_⟩
      · intro j hj
        rcases hval m' j hj with hj | ⟨r, p, hr, hp, rfl⟩
        · rw [b4 j hj, a4 j hj]
        · rw [b5 r p hr hp, a5 r p hr hp]
      · exact quantise_unique b8 a8
  | af =>
    obtain ⟨hc, hant⟩ := hA rfl
    rcases AF.encode_layout (RD := Fl.r64) (sq := sq) hq (maxLevel := e.maxQuantity) hc h hant hR dith fuel with
      h1 | ⟨m', s', a1, a2, a3, a4, a5⟩
    · exact Or.inl ⟨rfl, fun metaB sym hm hn hs => h1 metaB sym hm hn (Nat.le_of_eq hs.symm)⟩
    · right
      refine ⟨m', s', a1, a2, a3, a4, ?_⟩
      intro metaB sym hm hn hs
      obtain ⟨s, e1, l1, g1⟩ := a5 metaB sym hm (fun j hj => hn j (by rw [← hm]; exact hj))
        (Nat.le_of_eq hs.symm)
      exact ⟨m', s, e1, a1, by rw [l1, hs], fun _ _ => rfl, g1⟩

/-- The weight codec writes the announced layout, for finite non-negative float weights. -/
theorem weightWrites {bits : Nat} (hb : Supported bits) (hp : 1 ≤ nPol) {rows : Block Fl}
    {W : Nat → Nat → Nat → ℚ} (hW : Weight.HoldsWeights nPol nCh rows W)
    (hF : Weight.FloatWeights rows.len nCh nPol W) {m : Nat → Nat → ℚ}
    (hm : ∀ r c, r < rows.len → c < nCh → Weight.IsMin nPol (W r c) (m r c)) :
    ∃ M sym', Weight.IsBlockMax rows.len nCh m M ∧
      Writes (encWeight nPol nCh bits rows) Weight.metaDataFloatCount
        (Weight.symbolCount rows.len nCh) (2 ^ bits) ⟨1, fun _ => .fin M⟩ sym' ∧
      ∀ r c, r < rows.len → c < nCh →
        Weight.encodeSample Fl.r32 Fl.r64 (2 ^ bits) (.fin M) (.fin (m r c)) =
          some (sym'.get (r * nCh + c)) := by
  obtain ⟨mx, M, e1, e2, hM⟩ := Weight.maxLoop_spec hp hW hm
  obtain ⟨hmf, hM0, hMr, hM2⟩ := Weight.float_min_max hF hm hM
  have hq : 2 ≤ 2 ^ bits := by
    have : 2 ^ 1 ≤ 2 ^ bits := Nat.pow_le_pow_right (by decide) (by unfold Supported at hb; omega)
    simpa using this
  have hq2 : 2 ^ bits ≤ 2 ^ 16 := Nat.pow_le_pow_right (by decide) (by unfold Supported at hb; omega)
  have hcore : ∀ r c, ∃ s, r < rows.len → c < nCh →
      Weight.encodeSample Fl.r32 Fl.r64 (2 ^ bits) (.fin M) (.fin (m r c)) = some s ∧ s < 2 ^ bits := by
    intro r c
    by_cases h : r < rows.len ∧ c < nCh
    · obtain ⟨a1, a2, a3⟩ := hmf r c h.1 h.2
      obtain ⟨s, y, hs, hl, _⟩ := Weight.sample_core (2 ^ bits) hq hq2 a1 a2 a3 hM0 hMr hM2
      exact ⟨s, fun _ _ => ⟨hs, hl⟩⟩
    · exact ⟨0, fun h1 h2 => absurd ⟨h1, h2⟩ h⟩
  choose f hf using hcore
  have hix : ∀ j, j < rows.len * nCh → ∃ r c, r < rows.len ∧ c < nCh ∧ j = r * nCh + c := by
    intro j hj
    have hc : 0 < nCh := Nat.pos_of_ne_zero (by rintro rfl; simp at hj)
    exact ⟨j / nCh, j % nCh, (Nat.div_lt_iff_lt_mul hc).mpr hj, Nat.mod_lt _ hc, by
      rw [Nat.mul_comm, Nat.div_add_mod]⟩
  refine ⟨M, ⟨rows.len * nCh, fun j => f (j / nCh) (j % nCh)⟩, hM, ⟨rfl, ?_, rfl, ?_, ?_⟩, ?_⟩
  · intro j _ q hq
    injection hq with hq
    subst hq
    exact ⟨hMr, by rw [abs_of_pos hM0]; exact hM2⟩
  · intro j hj
    obtain ⟨r, c, hr, hc, rfl⟩ := hix j hj
    simp only
    rw [flat_div hc, flat_mod hc]
    exact (hf r c hr hc).2
  · intro metaB sym hml _ hs
    have hml : metaB.len = 1 := hml
    have hs : sym.len = rows.len * nCh := hs
    obtain ⟨st, e3, h1, h2, _⟩ := Weight.encode_loop (RF := Fl.r32) (RD := Fl.r64) (q := 2 ^ bits)
      (mx := .fin M) (f := f) hp hW hm (fun r c hr hc => (hf r c hr hc).1) sym (by omega)
    refine ⟨⟨metaB.len, fun j => if j = 0 then .fin M else metaB.get j⟩, st.1, ?_, hml, by rw [h1]; exact hs, ?_, ?_⟩
    · unfold encWeight Weight.encode
      rw [e1, Option.bind_some, e2, Buf.wr_some (by omega), Option.bind_some, e3]
      rfl
    · intro j hj
      have : j = 0 := Nat.lt_one_iff.mp hj
      simp only [this, if_true]
    · intro j hj
      obtain ⟨r, c, hr, hc, rfl⟩ := hix j hj
      simp only
      rw [h2 r c hr hc, flat_div hc, flat_mod hc]
  · intro r c hr hc
    simp only
    rw [flat_div hc, flat_mod hc]
    exact (hf r c hr hc).1

theorem weightReads {nR nPol nCh bits : Nat} (hc0 : 0 < nCh) :
    Reads (decWeight nPol nCh bits) Weight.metaDataFloatCount (Weight.symbolCount nR nCh) (2 ^ bits) nR
      (nCh * nPol) (fun metaB sym r i =>
        Weight.decodeSample Fl.r32 Fl.r64 (2 ^ bits) (metaB.get 0) (sym.get (r * nCh + i / nPol))) := by
  constructor
  · intro metaB sym rows r hm hs _ hr hd
    have hm : metaB.len = 1 := hm
    have hs : sym.len = nR * nCh := hs
    obtain ⟨rows', e, a1, a2, a3, a4⟩ := Weight.decode_row (RF := Fl.r32) (RD := Fl.r64) (nPol := nPol)
      (q := 2 ^ bits) (mx := metaB.get 0) rows sym r hd
      (fun c hc => by rw [hs]; exact flat_lt hr hc)
    refine ⟨rows', ?_, a1, a2, a3 hc0, ?_⟩
    · unfold decWeight
      rw [Buf.rd_some (by omega), Option.bind_some]
      exact e
    · intro i hi
      have hp : 0 < nPol := Nat.pos_of_ne_zero (by rintro rfl; simp at hi)
      have := a4 (i / nPol) (i % nPol) ((Nat.div_lt_iff_lt_mul hp).mpr hi) (Nat.mod_lt _ hp)
      rw [Nat.mul_comm (i / nPol), Nat.div_add_mod] at this
      exact this
  · intro m1 m2 s1 s2 _ _ _ _ hm hs r i hr hi
    have hp : 0 < nPol := Nat.pos_of_ne_zero (by rintro rfl; simp at hi)
    rw [hm 0 (by decide), hs _ (flat_lt hr ((Nat.div_lt_iff_lt_mul hp).mpr hi))]

/-! ## C28 -/

/-- **C28** for data: with every normalisation, supported bit count and block shape, for all old contents
of the buffers, either the encoder does not end (only possible with antenna-frequency normalisation), or
* it writes a block of exactly the announced size, whose bytes do not depend on the old contents,
* with the announced number of floats and symbols, every symbol below `2^bits`,
* and reading that block with the decoder of the same normalisation succeeds and gives for every row the
  values of exactly those floats and symbols. -/
theorem data_layout (norm : Norm) (sq : Fl → Fl) {e : Encoder} {b l : Nat → ℚ} {L : ℚ}
    (hT : Table e b l L) {bits : Nat} (hb : Supported bits) (hq : e.quantCount = 2 ^ bits)
    (h : Holds nR (nPol * nCh) A D data) (hR : 0 < nR)
    (hA : norm = .af → 0 < nCh ∧ AF.AntennasBelow nR nAnt A) (dith : Nat → Nat) (fuel : Nat) :
    (norm = .af ∧ ∀ packed unpacked,
      packed.len = blockSize (dataMetaCount norm nR nPol nCh nAnt) (symbolCount nR nPol nCh) bits →
      unpacked.len = symbolCount nR nPol nCh →
      writeBlock (encData norm sq e nPol nCh nAnt dith fuel data) bits
        (dataMetaCount norm nR nPol nCh nAnt) (symbolCount nR nPol nCh) packed unpacked = .hang) ∨
    ∃ (metaB' : Buf Fl) (sym' : Buf Nat) (blk : Mem 8),
      blk.len = 4 * dataMetaCount norm nR nPol nCh nAnt + (symbolCount nR nPol nCh * bits + 7) / 8 ∧
      Writes (encData norm sq e nPol nCh nAnt dith fuel data)
        (dataMetaCount norm nR nPol nCh nAnt) (symbolCount nR nPol nCh) (2 ^ bits) metaB' sym' ∧
      (∀ packed unpacked, packed.len = blk.len → unpacked.len = symbolCount nR nPol nCh →
        ∃ m, writeBlock (encData norm sq e nPol nCh nAnt dith fuel data) bits
            (dataMetaCount norm nR nPol nCh nAnt) (symbolCount nR nPol nCh) packed unpacked = .ok m ∧
          m.len = blk.len ∧ ∀ j, j < blk.len → m.get j = blk.get j) ∧
      ∀ dflt (out : Buf Nat) rows, out.len = symbolCount nR nPol nCh →
        ∃ rows', readBlock (decData norm e nPol nCh nAnt A) bits (dataMetaCount norm nR nPol nCh nAnt)
            (symbolCount nR nPol nCh) nR dflt blk out rows = .ok rows' ∧ rows'.len = nR ∧
          ∀ r, r < nR → (rows'.get r).vis.len = nPol * nCh ∧
            ∀ i, i < nPol * nCh → (rows'.get r).vis.get i = valueOf norm e nPol nCh nAnt A metaB' sym' r i := by
  rcases dataWrites norm sq hT h hR hA dith fuel with ⟨hn, h1⟩ | ⟨metaB', sym', hw⟩
  · left
    refine ⟨hn, ?_⟩
    intro packed unpacked hp hu
    unfold writeBlock
    rw [if_neg (by unfold blockSize at hp; omega), h1 _ _ rfl (fun j hj => if_neg (not_lt.mpr hj)) hu]
  · right
    rw [hq] at hw
    obtain ⟨blk, l1, g1, g2, g3⟩ := writeBlock_spec hb hw
    refine ⟨metaB', sym', blk, by rw [l1]; rfl, hw, fun p u hp hu => g1 p u (by rw [hp, l1]) hu, ?_⟩
    intro dflt out rows ho
    have hr := dataReads (nPol := nPol) (nCh := nCh) norm hT (fun hn => (hA hn).2)
    rw [hq] at hr
    exact readBlock_spec hr hw.metaLen hw.symLen hw.below l1 g2 g3 dflt out ho rows

/-- **C28** for weights: for all finite non-negative float weights and all old contents of the buffers,
the announced block is written, and reading it gives the values of the stored maximum and symbols. -/
theorem weight_layout {bits : Nat} (hb : Supported bits) (hp : 1 ≤ nPol) (hc : 0 < nCh)
    {rows : Block Fl} {W : Nat → Nat → Nat → ℚ} (hW : Weight.HoldsWeights nPol nCh rows W)
    (hF : Weight.FloatWeights rows.len nCh nPol W) {m : Nat → Nat → ℚ}
    (hm : ∀ r c, r < rows.len → c < nCh → Weight.IsMin nPol (W r c) (m r c)) :
    ∃ (M : ℚ) (sym' : Buf Nat) (blk : Mem 8), Weight.IsBlockMax rows.len nCh m M ∧
      blk.len = 4 * 1 + (rows.len * nCh * bits + 7) / 8 ∧
      Writes (encWeight nPol nCh bits rows) Weight.metaDataFloatCount
        (Weight.symbolCount rows.len nCh) (2 ^ bits) ⟨1, fun _ => .fin M⟩ sym' ∧
      (∀ r c, r < rows.len → c < nCh →
        Weight.encodeSample Fl.r32 Fl.r64 (2 ^ bits) (.fin M) (.fin (m r c)) =
          some (sym'.get (r * nCh + c))) ∧
      (∀ packed unpacked, packed.len = blk.len → unpacked.len = Weight.symbolCount rows.len nCh →
        ∃ w, writeBlock (encWeight nPol nCh bits rows) bits Weight.metaDataFloatCount
            (Weight.symbolCount rows.len nCh) packed unpacked = .ok w ∧
          w.len = blk.len ∧ ∀ j, j < blk.len → w.get j = blk.get j) ∧
      ∀ dflt (out : Buf Nat) dest, out.len = Weight.symbolCount rows.len nCh →
        ∃ rows', readBlock (decWeight nPol nCh bits) bits Weight.metaDataFloatCount
            (Weight.symbolCount rows.len nCh) rows.len dflt blk out dest = .ok rows' ∧
          rows'.len = rows.len ∧
          ∀ r, r < rows.len → (rows'.get r).vis.len = nCh * nPol ∧
            ∀ i, i < nCh * nPol → (rows'.get r).vis.get i =
              Weight.decodeSample Fl.r32 Fl.r64 (2 ^ bits) (.fin M) (sym'.get (r * nCh + i / nPol)) := by
  obtain ⟨M, sym', hM, hw, henc⟩ := weightWrites hb hp hW hF hm
  obtain ⟨blk, l1, g1, g2, g3⟩ := writeBlock_spec hb hw
  refine ⟨M, sym', blk, hM, by rw [l1]; rfl, hw, henc, fun p u hp hu => g1 p u (by rw [hp, l1]) hu, ?_⟩
  intro dflt out dest ho
  exact readBlock_spec (weightReads hc) hw.metaLen hw.symLen hw.below l1 g2 g3 dflt out ho dest

/-- The hypotheses hold for a 2-bit table and a block of two rows with flagged values, with each
normalisation. -/
example (norm : Norm) : Table Row.smallTable
      (fun i => if i = 0 then -1 / 2 else if i = 1 then 1 / 2 else fltMax) (fun k => (k : ℚ) - 1) 1 ∧
    Supported 2 ∧ Row.smallTable.quantCount = 2 ^ 2 ∧
    Holds 2 (1 * 3) (fun r => (r, r + 1)) (fun _ => Row.sampleVis)
      ⟨2, fun r => ⟨r, r + 1, ⟨3, Row.sampleVis⟩⟩⟩ ∧
    (norm = .af → 0 < 3 ∧ AF.AntennasBelow 2 3 (fun r => (r, r + 1))) :=
  ⟨Row.smallTable_ok, Or.inl rfl, rfl,
    ⟨rfl, fun _ _ => rfl, fun _ _ => rfl, fun _ _ _ _ => rfl⟩,
    fun _ => ⟨by decide, fun r hr => ⟨by show r < 3; omega, by show r + 1 < 3; omega⟩⟩⟩

end Dysco.Layout
