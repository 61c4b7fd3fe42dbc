import Verif.AFPols
import Verif.Permute
import Verif.AFRange

/-!
# C138: with antenna-frequency normalisation every polarisation is stored as if it were alone
-/

namespace Dysco.Layout
open BytePacker TimeBlock Stochastic

variable {nR nPol nPol' nCh nAnt bits : Nat} {A : Nat → Nat × Nat} {D D' : Nat → Nat → Cx} {data data' : Block Cx}

/-- A block that was written with antenna-frequency normalisation: the result of the encoder, and what is read back. -/
theorem af_block (sq : Fl → Fl) {e : Encoder} {b l : Nat → ℚ} {L : ℚ} (hT : Table e b l L) (hb : Supported bits)
    (hq : e.quantCount = 2 ^ bits) (hR : 0 < nR) (hC : 0 < nCh) (hA : AF.AntennasBelow nR nAnt A)
    (h : Holds nR (nPol * nCh) A D data) (dith : Nat → Nat) (fuel : Nat) {packed : Mem 8} {unpacked out : Buf Nat}
    (hp : packed.len = blockSize (nPol * (nCh + nAnt)) (symbolCount nR nPol nCh) bits)
    (hu : unpacked.len = symbolCount nR nPol nCh) (ho : out.len = symbolCount nR nPol nCh) (dflt : DataRow Cx)
    (rows : Block Cx) {d : Mem 8} (e1 : writeBlock (encData .af sq e nPol nCh nAnt dith fuel data) bits (nPol * (nCh + nAnt))
      (symbolCount nR nPol nCh) packed unpacked = .ok d) :
    ∃ (x : Block Cx) (m : Buf Fl) (s : Buf Nat),
      readBlock (decData .af e nPol nCh nAnt A) bits (nPol * (nCh + nAnt)) (symbolCount nR nPol nCh) nR dflt d out rows = .ok x ∧
      AF.encode Fl.r32 Fl.r64 sq (encFn Fl.r32 e true) e.maxQuantity nPol nCh nAnt dith fuel data
        ⟨nPol * (nCh + nAnt), fun _ => .nan⟩ ⟨symbolCount nR nPol nCh, fun _ => 0⟩ = some (some (m, s)) ∧
      (∀ j, j < symbolCount nR nPol nCh → symbolAt bits (4 * (nPol * (nCh + nAnt))) d j = s.get j) ∧
      (∀ j, j < nPol * (nCh + nAnt) → (metaView (nPol * (nCh + nAnt)) d).get j = m.get j) ∧
      ∀ r i, r < nR → i < nPol * nCh → (x.get r).vis.get i = valueOf .af e nPol nCh nAnt A m s r i := by
  obtain ⟨m0, s0, w⟩ : ∃ m s, Writes (encData .af sq e nPol nCh nAnt dith fuel data)
      (nPol * (nCh + nAnt)) (symbolCount nR nPol nCh) e.quantCount m s := by
    rcases dataWrites (nAnt := nAnt) .af sq hT h hR (fun _ => ⟨hC, hA⟩) dith fuel with ⟨-, h1⟩ | h1
    · exfalso
      unfold writeBlock at e1
      split at e1
      · cases e1
      · rw [h1 _ _ rfl (fun j hj => by
          have hj : nPol * (nCh + nAnt) ≤ j := hj
          unfold metaView
          simp only
          rw [if_neg (by omega)]) hu] at e1
        cases e1
    · exact h1
  have w' := w
  rw [hq] at w
  have hH : End.BlockHolds bits (nPol * (nCh + nAnt)) (symbolCount nR nPol nCh) m0 s0 d := End.holds_of_writes hb w hp hu e1
  have hRd : Reads (decData .af e nPol nCh nAnt A) (nPol * (nCh + nAnt)) (symbolCount nR nPol nCh) e.quantCount nR (nPol * nCh)
      (valueOf .af e nPol nCh nAnt A) := dataReads .af hT (fun _ => hA)
  rw [hq] at hRd
  obtain ⟨x, e3, -, g4⟩ := readBlock_spec hRd hH.metaLen hH.symLen hH.below hH.size hH.floats hH.symbols dflt out ho rows
  obtain ⟨m, s, b1, b2, b3, b4, b5⟩ := w'.same ⟨nPol * (nCh + nAnt), fun _ => .nan⟩ ⟨symbolCount nR nPol nCh, fun _ => 0⟩ rfl
    (fun _ _ => rfl) rfl
  refine ⟨x, m, s, e3, b1, fun j hj => ?_, fun j hj => ?_, fun r i hr hi => ?_⟩
  · obtain ⟨t, c1, -, c3⟩ := unpack_any hb hH.size ⟨symbolCount nR nPol nCh, fun _ => 0⟩ rfl
    obtain ⟨t', c1', -, c3'⟩ := hH.symbols ⟨symbolCount nR nPol nCh, fun _ => 0⟩ rfl
    rw [c1] at c1'
    obtain rfl : t = t' := by simpa using c1'
    rw [← c3 j hj, c3' j hj, b5 j hj]
  · rw [hH.floats j hj, b4 j hj]
  · rw [(g4 r hr).2 i hi]
    exact hRd.congr _ _ _ _ hH.metaLen b2 hH.symLen b3 (fun j hj => (b4 j hj).symm) (fun j hj => (b5 j hj).symm) r i hr hi

/-- **C138** Two blocks of any numbers of polarisations with the same rows, antennas and channels, and the same values in
polarisation `p` of the one and `p'` of the other, both written with antenna-frequency normalisation: the symbols, the channel
factors and the antenna factors of these polarisations are the same, and so are the values that are read. -/
theorem af_polarisations (sq : Fl → Fl) {e : Encoder} {b l : Nat → ℚ} {L : ℚ} (hT : Table e b l L)
    (hb : Supported bits) (hq : e.quantCount = 2 ^ bits) (hR : 0 < nR) (hC : 0 < nCh) (hA : AF.AntennasBelow nR nAnt A)
    (h : Holds nR (nPol * nCh) A D data) (h' : Holds nR (nPol' * nCh) A D' data') {p p' : Nat} (hp0 : p < nPol)
    (hp0' : p' < nPol') (hD : ∀ r ch, r < nR → ch < nCh → D' r (ch * nPol' + p') = D r (ch * nPol + p))
    (dith dith' : Nat → Nat) (hd : ∀ r ch k, r < nR → ch < nCh → k < 2 →
      dith' ((r * (nPol' * nCh) + (ch * nPol' + p')) * 2 + k) = dith ((r * (nPol * nCh) + (ch * nPol + p)) * 2 + k))
    (fuel : Nat) {packed packed' : Mem 8} {unpacked unpacked' out out' : Buf Nat}
    (hp : packed.len = blockSize (nPol * (nCh + nAnt)) (symbolCount nR nPol nCh) bits)
    (hp' : packed'.len = blockSize (nPol' * (nCh + nAnt)) (symbolCount nR nPol' nCh) bits)
    (hu : unpacked.len = symbolCount nR nPol nCh) (hu' : unpacked'.len = symbolCount nR nPol' nCh)
    (ho : out.len = symbolCount nR nPol nCh) (ho' : out'.len = symbolCount nR nPol' nCh)
    (dflt dflt' : DataRow Cx) (rows rows' : Block Cx) {d d' : Mem 8}
    (e1 : writeBlock (encData .af sq e nPol nCh nAnt dith fuel data) bits (nPol * (nCh + nAnt))
        (symbolCount nR nPol nCh) packed unpacked = .ok d)
    (e1' : writeBlock (encData .af sq e nPol' nCh nAnt dith' fuel data') bits (nPol' * (nCh + nAnt))
        (symbolCount nR nPol' nCh) packed' unpacked' = .ok d') :
    ∃ x x',
      readBlock (decData .af e nPol nCh nAnt A) bits (nPol * (nCh + nAnt)) (symbolCount nR nPol nCh) nR dflt d out rows = .ok x ∧
      readBlock (decData .af e nPol' nCh nAnt A) bits (nPol' * (nCh + nAnt)) (symbolCount nR nPol' nCh) nR dflt' d' out' rows' =
        .ok x' ∧
      (∀ ch, ch < nCh → (metaView (nPol' * (nCh + nAnt)) d').get (ch * nPol' + p') =
        (metaView (nPol * (nCh + nAnt)) d).get (ch * nPol + p)) ∧
      (∀ a, a < nAnt → (metaView (nPol' * (nCh + nAnt)) d').get (nPol' * nCh + (nAnt * p' + a)) =
        (metaView (nPol * (nCh + nAnt)) d).get (nPol * nCh + (nAnt * p + a))) ∧
      ∀ r ch, r < nR → ch < nCh →
        (∀ k, k < 2 → symbolAt bits (4 * (nPol' * (nCh + nAnt))) d' ((r * (nPol' * nCh) + (ch * nPol' + p')) * 2 + k) =
          symbolAt bits (4 * (nPol * (nCh + nAnt))) d ((r * (nPol * nCh) + (ch * nPol + p)) * 2 + k)) ∧
        (x'.get r).vis.get (ch * nPol' + p') = (x.get r).vis.get (ch * nPol + p) := by
  have hcount : ∀ n : Nat, n * (nCh + nAnt) = n * nCh + nAnt * n := fun n => by rw [Nat.mul_add, Nat.mul_comm n nAnt]
  obtain ⟨x, m, s, r1, a1, s1, m1, v1⟩ := af_block sq hT hb hq hR hC hA h dith fuel hp hu ho dflt rows e1
  obtain ⟨x', m', s', r1', a1', s1', m1', v1'⟩ := af_block sq hT hb hq hR hC hA h' dith' fuel hp' hu' ho' dflt' rows' e1'
  obtain ⟨g1, g2, g3⟩ := AF.encode_polarisation (hT.total Fl.r32 true) hC hA hR hp0 hp0' h h' hD hd fuel
    (by simp only; rw [hcount]) (by simp only; rw [hcount]) (by simp only; rw [symbolCount_eq])
    (by simp only; rw [symbolCount_eq]) a1 a1'
  have lt1 : ∀ {n q c}, c < nCh → q < n → c * n + q < n * (nCh + nAnt) := by
    intro n q c hc hq'
    have := AF.chan_lt (nPol := n) hc hq'
    rw [hcount]
    omega
  have lt2 : ∀ {n q r c k}, r < nR → c < nCh → q < n → k < 2 → (r * (n * nCh) + (c * n + q)) * 2 + k < symbolCount nR n nCh := by
    intro n q r c k hr hc hq' hk
    rw [symbolCount_eq]
    have := flat_lt hr (AF.chan_lt (nPol := n) hc hq')
    omega
  refine ⟨x, x', r1, r1', fun c hc => ?_, fun a ha => ?_, fun r c hr hc => ⟨fun k hk => ?_, ?_⟩⟩
  · rw [m1 _ (lt1 hc hp0), m1' _ (lt1 hc hp0'), g1 c hc]
  · rw [m1 _ (ant_index_lt ha hp0), m1' _ (ant_index_lt ha hp0'), g2 a ha]
  · rw [s1 _ (lt2 hr hc hp0 hk), s1' _ (lt2 hr hc hp0' hk), g3 r c k hr hc hk]
  · rw [v1 r _ hr (AF.chan_lt hc hp0), v1' r _ hr (AF.chan_lt hc hp0')]
    have mod : ∀ {n q : Nat}, q < n → (c * n + q) % n = q := by
      intro n q hq'
      rw [Nat.mul_comm, Nat.mul_add_mod, Nat.mod_eq_of_lt hq']
    have hf : factorOf .af nPol' nCh nAnt A m' r (c * nPol' + p') = factorOf .af nPol nCh nAnt A m r (c * nPol + p) := by
      simp only [factorOf]
      rw [mod hp0, mod hp0', g1 c hc, g2 _ (hA r hr).1, g2 _ (hA r hr).2]
    unfold valueOf
    have k0 := g3 r c 0 hr hc (by decide)
    rw [Nat.add_zero, Nat.add_zero] at k0
    rw [hf, k0, g3 r c 1 hr hc (by decide)]

/-- A block is either written, exactly if the encoder ends, or the encoder does not end. -/
theorem af_written_iff (sq : Fl → Fl) {e : Encoder} {b l : Nat → ℚ} {L : ℚ} (hT : Table e b l L) (hb : Supported bits)
    (hq : e.quantCount = 2 ^ bits) (hR : 0 < nR) (hC : 0 < nCh) (hA : AF.AntennasBelow nR nAnt A)
    (h : Holds nR (nPol * nCh) A D data) (dith : Nat → Nat) (fuel : Nat) {packed : Mem 8} {unpacked : Buf Nat}
    (hp : packed.len = blockSize (nPol * (nCh + nAnt)) (symbolCount nR nPol nCh) bits)
    (hu : unpacked.len = symbolCount nR nPol nCh) :
    (∃ d, writeBlock (encData .af sq e nPol nCh nAnt dith fuel data) bits (nPol * (nCh + nAnt))
      (symbolCount nR nPol nCh) packed unpacked = .ok d) ↔
    ∃ m s, AF.encode Fl.r32 Fl.r64 sq (encFn Fl.r32 e true) e.maxQuantity nPol nCh nAnt dith fuel data
        ⟨nPol * (nCh + nAnt), fun _ => .nan⟩ ⟨symbolCount nR nPol nCh, fun _ => 0⟩ = some (some (m, s)) := by
  constructor
  · rintro ⟨d, e1⟩
    obtain ⟨_, m, s, _, g, _⟩ := af_block sq hT hb hq hR hC hA h dith fuel hp hu hu ⟨0, 0, ⟨0, fun _ => ⟨.nan, .nan⟩⟩⟩
      ⟨0, fun _ => ⟨0, 0, ⟨0, fun _ => ⟨.nan, .nan⟩⟩⟩⟩ e1
    exact ⟨m, s, g⟩
  · rintro ⟨m, s, g⟩
    rcases dataWrites (nAnt := nAnt) .af sq hT h hR (fun _ => ⟨hC, hA⟩) dith fuel with ⟨-, h1⟩ | ⟨m0, s0, w⟩
    · have := h1 ⟨nPol * (nCh + nAnt), fun _ => .nan⟩ ⟨symbolCount nR nPol nCh, fun _ => 0⟩ rfl (fun _ _ => rfl) rfl
      simp only [encData] at this
      rw [this] at g
      cases g
    · rw [hq] at w
      obtain ⟨blk, -, g1, -⟩ := writeBlock_spec hb w
      obtain ⟨d, e1, -⟩ := g1 packed unpacked hp hu
      exact ⟨d, e1⟩

/-- **C138** A block is written with antenna-frequency normalisation exactly if every one of its polarisations, taken as a
block of its own, is written. -/
theorem af_written_each (sq : Fl → Fl) {e : Encoder} {b l : Nat → ℚ} {L : ℚ} (hT : Table e b l L) (hb : Supported bits)
    (hq : e.quantCount = 2 ^ bits) (hR : 0 < nR) (hC : 0 < nCh) (hP : 0 < nPol) (hA : AF.AntennasBelow nR nAnt A)
    (h : Holds nR (nPol * nCh) A D data) {single : Nat → Block Cx}
    (h' : ∀ p, p < nPol → Holds nR (1 * nCh) A (fun r c => D r (c * nPol + p)) (single p)) (dith : Nat → Nat)
    (dith' : Nat → Nat → Nat) (fuel : Nat) {packed packed' : Mem 8} {unpacked unpacked' : Buf Nat}
    (hp : packed.len = blockSize (nPol * (nCh + nAnt)) (symbolCount nR nPol nCh) bits)
    (hp' : packed'.len = blockSize (1 * (nCh + nAnt)) (symbolCount nR 1 nCh) bits)
    (hu : unpacked.len = symbolCount nR nPol nCh) (hu' : unpacked'.len = symbolCount nR 1 nCh) :
    (∃ d, writeBlock (encData .af sq e nPol nCh nAnt dith fuel data) bits (nPol * (nCh + nAnt))
      (symbolCount nR nPol nCh) packed unpacked = .ok d) ↔
    ∀ p, p < nPol → ∃ d, writeBlock (encData .af sq e 1 nCh nAnt (dith' p) fuel (single p)) bits (1 * (nCh + nAnt))
      (symbolCount nR 1 nCh) packed' unpacked' = .ok d := by
  have hcount : ∀ n : Nat, n * (nCh + nAnt) = n * nCh + nAnt * n := fun n => by rw [Nat.mul_add, Nat.mul_comm n nAnt]
  rw [af_written_iff sq hT hb hq hR hC hA h dith fuel hp hu,
    AF.encode_ends_each (dith' := dith') (hT.total Fl.r32 true) hC hA hR hP h h' fuel
      (metaB' := ⟨1 * (nCh + nAnt), fun _ => .nan⟩) (sym' := ⟨symbolCount nR 1 nCh, fun _ => 0⟩)
      (by simp only; rw [hcount]) (by simp only; rw [hcount]) (by simp only; rw [symbolCount_eq])
      (by simp only; rw [symbolCount_eq])]
  exact forall_congr' fun p => imp_congr_right fun hpp =>
    (af_written_iff sq hT hb hq hR hC hA (h' p hpp) (dith' p) fuel hp' hu').symm

/-- Three rows of one channel and two polarisations, one of them an auto-correlation: the block is written for a long enough
wait, so are its two polarisations as blocks of their own, and the factors of polarisation 1 are the same there. -/
example (packed packed' : Mem 8) (hl : packed.len = blockSize 6 12 2) (hl' : packed'.len = blockSize 3 6 2) :
    ∃ fuel d d', writeBlock (encData .af AF.coarseSqrt Row.smallTable 2 1 2 (fun _ => 0) fuel
        ⟨3, fun r => ⟨(AF.moderateAnt r).1, (AF.moderateAnt r).2, ⟨2, AF.moderateVis r⟩⟩⟩) 2 6 12 packed ⟨12, fun _ => 0⟩ =
          .ok d ∧
      writeBlock (encData .af AF.coarseSqrt Row.smallTable 1 1 2 (fun _ => 0) fuel
        ⟨3, fun r => ⟨(AF.moderateAnt r).1, (AF.moderateAnt r).2, ⟨1, fun i => AF.moderateVis r (i * 2 + 1)⟩⟩⟩) 2 3 6 packed'
          ⟨6, fun _ => 0⟩ = .ok d' ∧
      (metaView 3 d').get 0 = (metaView 6 d).get 1 ∧ (metaView 3 d').get 2 = (metaView 6 d).get 5 := by
  have hA : AF.AntennasBelow 3 2 AF.moderateAnt := by
    intro r _
    unfold AF.moderateAnt
    split <;> decide
  have h : Holds 3 (2 * 1) AF.moderateAnt AF.moderateVis
      ⟨3, fun r => ⟨(AF.moderateAnt r).1, (AF.moderateAnt r).2, ⟨2, AF.moderateVis r⟩⟩⟩ :=
    ⟨rfl, fun _ _ => rfl, fun _ _ => rfl, fun _ _ _ _ => rfl⟩
  have h' : ∀ p, p < 2 → Holds 3 (1 * 1) AF.moderateAnt (fun r c => AF.moderateVis r (c * 2 + p))
      ⟨3, fun r => ⟨(AF.moderateAnt r).1, (AF.moderateAnt r).2, ⟨1, fun i => AF.moderateVis r (i * 2 + p)⟩⟩⟩ :=
    fun _ _ => ⟨rfl, fun _ _ => rfl, fun _ _ => rfl, fun _ _ _ _ => rfl⟩
  have hM : AF.Moderate 3 (2 * 1) AF.moderateAnt AF.moderateVis := by
    intro r i hr hi
    have hr' : r = 0 ∨ r = 1 ∨ r = 2 := by omega
    have hi' : i = 0 ∨ i = 1 := by omega
    rcases hr' with rfl | rfl | rfl <;> rcases hi' with rfl | rfl <;>
      refine ⟨?_, ?_⟩ <;> simp [AF.moderateVis, AF.Cross, AF.moderateAnt] <;> norm_num
  obtain ⟨N, m, s, hN⟩ := AF.af_ends (nPol := 2) (nCh := 1) AF.coarseSqrt_mono Row.smallTable_ok
    (Fl.repr32_nat (n := 1) (by norm_num)) true (fun _ => 0) (by decide) (by decide) hA (by decide) (by decide) (by decide) h hM
    ⟨6, fun _ => .nan⟩ (by decide) ⟨12, fun _ => 0⟩ (by decide)
  obtain ⟨d, hd⟩ := (af_written_iff (nAnt := 2) (bits := 2) AF.coarseSqrt Row.smallTable_ok (Or.inl rfl) rfl (by decide)
    (by decide) hA h (fun _ => 0) N (packed := packed) (unpacked := ⟨12, fun _ => 0⟩) hl rfl).mpr ⟨m, s, hN N (Nat.le_refl _)⟩
  obtain ⟨d', hd'⟩ := (af_written_each (nAnt := 2) (bits := 2) AF.coarseSqrt Row.smallTable_ok (Or.inl rfl) rfl (by decide)
    (by decide) (by decide) hA h h' (fun _ => 0) (fun _ _ => 0) N (packed := packed) (packed' := packed')
    (unpacked := ⟨12, fun _ => 0⟩) (unpacked' := ⟨6, fun _ => 0⟩) hl hl' rfl rfl).mp ⟨d, hd⟩ 1 (by decide)
  obtain ⟨x, x', -, -, g1, g2, -⟩ := af_polarisations (nAnt := 2) (bits := 2) AF.coarseSqrt Row.smallTable_ok (Or.inl rfl) rfl
    (by decide) (by decide) hA h (h' 1 (by decide)) (p := 1) (p' := 0) (by decide) (by decide)
    (fun r ch _ _ => by simp) (fun _ => 0) (fun _ => 0) (fun _ _ _ _ _ _ => rfl) N hl hl'
    (unpacked := ⟨12, fun _ => 0⟩) (unpacked' := ⟨6, fun _ => 0⟩) (out := ⟨12, fun _ => 0⟩) (out' := ⟨6, fun _ => 0⟩)
    rfl rfl rfl rfl ⟨0, 0, ⟨0, fun _ => ⟨.nan, .nan⟩⟩⟩ ⟨0, 0, ⟨0, fun _ => ⟨.nan, .nan⟩⟩⟩
    ⟨0, fun _ => ⟨0, 0, ⟨0, fun _ => ⟨.nan, .nan⟩⟩⟩⟩ ⟨0, fun _ => ⟨0, 0, ⟨0, fun _ => ⟨.nan, .nan⟩⟩⟩⟩ hd hd'
  exact ⟨N, d, d', hd, hd', g1 0 (by decide), g2 1 (by decide)⟩

end Dysco.Layout
