import Verif.PowerRF

/-!
# C138: polarisations are separate, and the order of rows, channels and polarisations does not matter

With row-frequency normalisation, what is stored for a polarisation depends on the values of that polarisation only. If the
rows, channels and polarisations of a block are put in another order, the symbols, factors and values are in that other order.
With row normalisation the same holds for the rows, and for the samples of every row.
-/

namespace Dysco
open TimeBlock

/-- The largest value does not depend on the order. -/
theorem maxFold_reindex {n n' : Nat} {v w : Nat → Cx} (h : ∀ i, i < n → ∃ i', i' < n' ∧ w i' = v i)
    (h' : ∀ i', i' < n' → ∃ i, i < n ∧ v i = w i') : maxFold w n' = maxFold v n := by
  obtain ⟨M, e, h0, h1, h2⟩ := maxFold_spec v n
  rw [e]
  refine maxFold_eq ⟨h0, fun i' m hi' hc => ?_, ?_⟩
  · obtain ⟨i, hi, e'⟩ := h' i' hi'
    exact h1 i m hi (by rw [e']; exact hc)
  · rcases h2 with h2 | ⟨i, hi, hc⟩
    · exact Or.inl h2
    · obtain ⟨i', hi', e'⟩ := h i hi
      exact Or.inr ⟨i', hi', by rw [e']; exact hc⟩

/-- `f` puts the numbers below `n` in another order; `g` is the way back. Not in the code. -/
structure Perm (n : Nat) (f g : Nat → Nat) : Prop where
  fwd : ∀ i, i < n → f i < n
  back : ∀ i, i < n → g i < n
  left : ∀ i, i < n → g (f i) = i
  right : ∀ i, i < n → f (g i) = i

end Dysco

namespace Dysco.Layout
open BytePacker TimeBlock Stochastic

variable {nR nPol nCh nAnt bits : Nat} {A A' : Nat → Nat × Nat} {D D' : Nat → Nat → Cx} {data data' : Block Cx}

/-- **C138** Two blocks that agree in one polarisation, written with row-frequency normalisation: the symbols, the channel
factors and the row factors of that polarisation are the same, and so are the values that are read. -/
theorem rf_polarisations (sq : Fl → Fl) {e : Encoder} {b l : Nat → ℚ} {L : ℚ} (hT : Table e b l L)
    (hb : Supported bits) (hq : e.quantCount = 2 ^ bits) (hR : 0 < nR)
    (h : Holds nR (nPol * nCh) A D data) (h' : Holds nR (nPol * nCh) A' D' data') {p : Nat} (hp0 : p < nPol)
    (hD : ∀ r ch, r < nR → ch < nCh → D' r (ch * nPol + p) = D r (ch * nPol + p))
    (dith dith' : Nat → Nat) (hd : ∀ r ch k, r < nR → ch < nCh → k < 2 →
      dith' ((r * (nPol * nCh) + (ch * nPol + p)) * 2 + k) = dith ((r * (nPol * nCh) + (ch * nPol + p)) * 2 + k))
    (fuel : Nat) {packed packed' : Mem 8} {unpacked unpacked' out out' : Buf Nat}
    (hp : packed.len = blockSize (nPol * (nCh + nR)) (symbolCount nR nPol nCh) bits)
    (hp' : packed'.len = blockSize (nPol * (nCh + nR)) (symbolCount nR nPol nCh) bits)
    (hu : unpacked.len = symbolCount nR nPol nCh) (hu' : unpacked'.len = symbolCount nR nPol nCh)
    (ho : out.len = symbolCount nR nPol nCh) (ho' : out'.len = symbolCount nR nPol nCh)
    (dflt dflt' : DataRow Cx) (rows rows' : Block Cx) :
    ∃ d d' x x', writeBlock (encData .rf sq e nPol nCh nAnt dith fuel data) bits (nPol * (nCh + nR))
        (symbolCount nR nPol nCh) packed unpacked = .ok d ∧
      writeBlock (encData .rf sq e nPol nCh nAnt dith' fuel data') bits (nPol * (nCh + nR))
        (symbolCount nR nPol nCh) packed' unpacked' = .ok d' ∧
      readBlock (decData .rf e nPol nCh nAnt A) bits (nPol * (nCh + nR)) (symbolCount nR nPol nCh) nR dflt d out rows = .ok x ∧
      readBlock (decData .rf e nPol nCh nAnt A') bits (nPol * (nCh + nR)) (symbolCount nR nPol nCh) nR dflt' d' out' rows' =
        .ok x' ∧
      (∀ ch, ch < nCh → (metaView (nPol * (nCh + nR)) d').get (ch * nPol + p) =
        (metaView (nPol * (nCh + nR)) d).get (ch * nPol + p)) ∧
      (∀ r, r < nR → (metaView (nPol * (nCh + nR)) d').get (nPol * nCh + (r * nPol + p)) =
        (metaView (nPol * (nCh + nR)) d).get (nPol * nCh + (r * nPol + p))) ∧
      ∀ r ch, r < nR → ch < nCh →
        (∀ k, k < 2 → symbolAt bits (4 * (nPol * (nCh + nR))) d' ((r * (nPol * nCh) + (ch * nPol + p)) * 2 + k) =
          symbolAt bits (4 * (nPol * (nCh + nR))) d ((r * (nPol * nCh) + (ch * nPol + p)) * 2 + k)) ∧
        (x'.get r).vis.get (ch * nPol + p) = (x.get r).vis.get (ch * nPol + p) := by
  obtain ⟨d, x, s, e1, e2, e3, e4, e5, e6, e7⟩ := rf_block (nAnt := nAnt) sq hT hb hq hR h dith fuel hp hu ho dflt rows
  obtain ⟨d', x', s', e1', e2', e3', e4', e5', e6', e7'⟩ := rf_block (nAnt := nAnt) sq hT hb hq hR h' dith' fuel hp' hu' ho'
    dflt' rows'
  have idx : ∀ {ch}, ch < nCh → ch * nPol + p < nPol * nCh ∧ (ch * nPol + p) % nPol = p := by
    intro ch hch
    refine ⟨by have := flat_lt hch hp0; rwa [Nat.mul_comm nCh] at this, ?_⟩
    rw [Nat.mul_comm, Nat.mul_add_mod, Nat.mod_eq_of_lt hp0]
  have hmax : ∀ r, r < nR → RF.pMax nPol nCh D' r p = RF.pMax nPol nCh D r p :=
    fun r hr => TimeBlock.maxFold_congr fun ch hch => hD r ch hr hch
  have hrowed : ∀ r ch, r < nR → ch < nCh → RF.rowed Fl.r64 (.fin L) nPol nCh D' r (ch * nPol + p) =
      RF.rowed Fl.r64 (.fin L) nPol nCh D r (ch * nPol + p) := by
    intro r ch hr hch
    unfold RF.rowed
    rw [(idx hch).2, hmax r hr, hD r ch hr hch]
  have hch : ∀ ch, ch < nCh → RF.chF Fl.r64 (.fin L) nR nPol nCh D' (ch * nPol + p) =
      RF.chF Fl.r64 (.fin L) nR nPol nCh D (ch * nPol + p) := by
    intro ch hc
    unfold RF.chF
    rw [TimeBlock.maxFold_congr fun r hr => hrowed r ch hr hc]
  have m1 : ∀ ch, ch < nCh → (metaView (nPol * (nCh + nR)) d').get (ch * nPol + p) =
      (metaView (nPol * (nCh + nR)) d).get (ch * nPol + p) := by
    intro ch hc
    rw [e4 _ (idx hc).1, e4' _ (idx hc).1, hch ch hc]
  have m2 : ∀ r, r < nR → (metaView (nPol * (nCh + nR)) d').get (nPol * nCh + (r * nPol + p)) =
      (metaView (nPol * (nCh + nR)) d).get (nPol * nCh + (r * nPol + p)) := by
    intro r hr
    rw [e5 r p hr hp0, e5' r p hr hp0, hmax r hr]
  refine ⟨d, d', x, x', e1, e1', e2, e2', m1, m2, fun r ch hr hc => ?_⟩
  have hi := (idx hc).1
  have hlt : (r * (nPol * nCh) + (ch * nPol + p)) * 2 + 1 < symbolCount nR nPol nCh := by
    rw [symbolCount_eq]
    have := flat_lt hr hi
    omega
  have hs : s' ((r * (nPol * nCh) + (ch * nPol + p)) * 2) = s ((r * (nPol * nCh) + (ch * nPol + p)) * 2) ∧
      s' ((r * (nPol * nCh) + (ch * nPol + p)) * 2 + 1) = s ((r * (nPol * nCh) + (ch * nPol + p)) * 2 + 1) := by
    have h1 := e6 r _ hr hi
    have h2 := e6' r _ hr hi
    have d0 := hd r ch 0 hr hc (by decide)
    have d1 := hd r ch 1 hr hc (by decide)
    rw [Nat.add_zero] at d0
    rw [hrowed r ch hr hc, hch ch hc, d0, d1, h1.1, h1.2] at h2
    exact ⟨by simpa using h2.1.symm, by simpa using h2.2.symm⟩
  constructor
  · intro k hk
    rw [(e3 _ (by omega)).2, (e3' _ (by omega)).2]
    obtain rfl | rfl : k = 0 ∨ k = 1 := by omega
    · exact hs.1
    · exact hs.2
  · rw [e7 r _ hr hi, e7' r _ hr hi, (idx hc).2, m1 ch hc, m2 r hr, hs.1, hs.2]

/-- **C138** A block and the same block with its rows in the order `σ`, and its samples in an order `τ` that keeps samples of
one polarisation together (`ρ` is the order of the polarisations), written with row-frequency normalisation. The symbols, the
channel factors, the row factors and the values that are read are in that other order. -/
theorem rf_permuted (sq : Fl → Fl) {e : Encoder} {b l : Nat → ℚ} {L : ℚ} (hT : Table e b l L)
    (hb : Supported bits) (hq : e.quantCount = 2 ^ bits) (hR : 0 < nR)
    (h : Holds nR (nPol * nCh) A D data) {σ σ' τ τ' ρ ρ' : Nat → Nat} (hσ : Perm nR σ σ') (hτ : Perm (nPol * nCh) τ τ')
    (hρ : Perm nPol ρ ρ') (hpol : ∀ i, i < nPol * nCh → τ i % nPol = ρ (i % nPol))
    (h' : Holds nR (nPol * nCh) A' (fun r i => D (σ r) (τ i)) data')
    (dith dith' : Nat → Nat) (hd : ∀ r i k, r < nR → i < nPol * nCh → k < 2 →
      dith' ((r * (nPol * nCh) + i) * 2 + k) = dith ((σ r * (nPol * nCh) + τ i) * 2 + k))
    (fuel : Nat) {packed packed' : Mem 8} {unpacked unpacked' out out' : Buf Nat}
    (hp : packed.len = blockSize (nPol * (nCh + nR)) (symbolCount nR nPol nCh) bits)
    (hp' : packed'.len = blockSize (nPol * (nCh + nR)) (symbolCount nR nPol nCh) bits)
    (hu : unpacked.len = symbolCount nR nPol nCh) (hu' : unpacked'.len = symbolCount nR nPol nCh)
    (ho : out.len = symbolCount nR nPol nCh) (ho' : out'.len = symbolCount nR nPol nCh)
    (dflt dflt' : DataRow Cx) (rows rows' : Block Cx) :
    ∃ d d' x x', writeBlock (encData .rf sq e nPol nCh nAnt dith fuel data) bits (nPol * (nCh + nR))
        (symbolCount nR nPol nCh) packed unpacked = .ok d ∧
      writeBlock (encData .rf sq e nPol nCh nAnt dith' fuel data') bits (nPol * (nCh + nR))
        (symbolCount nR nPol nCh) packed' unpacked' = .ok d' ∧
      readBlock (decData .rf e nPol nCh nAnt A) bits (nPol * (nCh + nR)) (symbolCount nR nPol nCh) nR dflt d out rows = .ok x ∧
      readBlock (decData .rf e nPol nCh nAnt A') bits (nPol * (nCh + nR)) (symbolCount nR nPol nCh) nR dflt' d' out' rows' =
        .ok x' ∧
      (∀ i, i < nPol * nCh → (metaView (nPol * (nCh + nR)) d').get i = (metaView (nPol * (nCh + nR)) d).get (τ i)) ∧
      (∀ r p, r < nR → p < nPol → (metaView (nPol * (nCh + nR)) d').get (nPol * nCh + (r * nPol + p)) =
        (metaView (nPol * (nCh + nR)) d).get (nPol * nCh + (σ r * nPol + ρ p))) ∧
      ∀ r i, r < nR → i < nPol * nCh →
        (∀ k, k < 2 → symbolAt bits (4 * (nPol * (nCh + nR))) d' ((r * (nPol * nCh) + i) * 2 + k) =
          symbolAt bits (4 * (nPol * (nCh + nR))) d ((σ r * (nPol * nCh) + τ i) * 2 + k)) ∧
        (x'.get r).vis.get i = (x.get (σ r)).vis.get (τ i) := by
  obtain ⟨d, x, s, e1, e2, e3, e4, e5, e6, e7⟩ := rf_block (nAnt := nAnt) sq hT hb hq hR h dith fuel hp hu ho dflt rows
  obtain ⟨d', x', s', e1', e2', e3', e4', e5', e6', e7'⟩ := rf_block (nAnt := nAnt) sq hT hb hq hR h' dith' fuel hp' hu' ho'
    dflt' rows'
  have idx : ∀ {ch p}, ch < nCh → p < nPol → ch * nPol + p < nPol * nCh ∧ (ch * nPol + p) % nPol = p := by
    intro ch p hch hp0
    refine ⟨by have := flat_lt hch hp0; rwa [Nat.mul_comm nCh] at this, ?_⟩
    rw [Nat.mul_comm, Nat.mul_add_mod, Nat.mod_eq_of_lt hp0]
  have split : ∀ i, i / nPol * nPol + i % nPol = i := fun i => by rw [Nat.mul_comm]; exact Nat.div_add_mod i nPol
  have hmax : ∀ r p, r < nR → p < nPol →
      RF.pMax nPol nCh (fun r i => D (σ r) (τ i)) r p = RF.pMax nPol nCh D (σ r) (ρ p) := by
    intro r p hr hp0
    unfold RF.pMax
    refine maxFold_reindex (fun ch hch => ?_) (fun ch hch => ?_)
    · -- the sample `ch`, `ρ p` is at `τ'`
      have hi := idx hch (hρ.fwd p hp0)
      have h1 := hτ.back _ hi.1
      have h2 := hpol _ h1
      rw [hτ.right _ hi.1, hi.2] at h2
      have h3 : τ' (ch * nPol + ρ p) % nPol = p := by
        have h4 := congrArg ρ' h2
        rw [hρ.left p hp0, hρ.left _ (Nat.mod_lt _ (by omega))] at h4
        exact h4.symm
      refine ⟨τ' (ch * nPol + ρ p) / nPol, Nat.div_lt_of_lt_mul h1, ?_⟩
      have h5 := split (τ' (ch * nPol + ρ p))
      rw [h3] at h5
      simp only [h5, hτ.right _ hi.1]
    · have hi := idx hch hp0
      have h1 := hpol _ hi.1
      rw [hi.2] at h1
      refine ⟨τ (ch * nPol + p) / nPol, Nat.div_lt_of_lt_mul (hτ.fwd _ hi.1), ?_⟩
      have h5 := split (τ (ch * nPol + p))
      rw [h1] at h5
      simp only [h5]
  have hrowed : ∀ r i, r < nR → i < nPol * nCh → RF.rowed Fl.r64 (.fin L) nPol nCh (fun r i => D (σ r) (τ i)) r i =
      RF.rowed Fl.r64 (.fin L) nPol nCh D (σ r) (τ i) := by
    intro r i hr hi
    have hp0 : 0 < nPol := Nat.pos_of_ne_zero (by rintro rfl; simp at hi)
    unfold RF.rowed
    rw [hmax r _ hr (Nat.mod_lt _ hp0), hpol i hi]
  have hch : ∀ i, i < nPol * nCh → RF.chF Fl.r64 (.fin L) nR nPol nCh (fun r i => D (σ r) (τ i)) i =
      RF.chF Fl.r64 (.fin L) nR nPol nCh D (τ i) := by
    intro i hi
    unfold RF.chF
    congr 1
    refine maxFold_reindex (fun r hr => ⟨σ' r, hσ.back r hr, ?_⟩) (fun r hr => ⟨σ r, hσ.fwd r hr, (hrowed r i hr hi).symm⟩)
    rw [hrowed _ i (hσ.back r hr) hi, hσ.right r hr]
  have m1 : ∀ i, i < nPol * nCh → (metaView (nPol * (nCh + nR)) d').get i = (metaView (nPol * (nCh + nR)) d).get (τ i) := by
    intro i hi
    rw [e4' _ hi, e4 _ (hτ.fwd i hi), hch i hi]
  have m2 : ∀ r p, r < nR → p < nPol → (metaView (nPol * (nCh + nR)) d').get (nPol * nCh + (r * nPol + p)) =
      (metaView (nPol * (nCh + nR)) d).get (nPol * nCh + (σ r * nPol + ρ p)) := by
    intro r p hr hp0
    rw [e5' r p hr hp0, e5 _ _ (hσ.fwd r hr) (hρ.fwd p hp0), hmax r p hr hp0]
  refine ⟨d, d', x, x', e1, e1', e2, e2', m1, m2, fun r i hr hi => ?_⟩
  have hlt : ∀ {r i}, r < nR → i < nPol * nCh → (r * (nPol * nCh) + i) * 2 + 1 < symbolCount nR nPol nCh := by
    intro r i hr hi
    rw [symbolCount_eq]
    have := flat_lt hr hi
    omega
  have hl1 := hlt hr hi
  have hl2 := hlt (hσ.fwd r hr) (hτ.fwd i hi)
  have hs : s' ((r * (nPol * nCh) + i) * 2) = s ((σ r * (nPol * nCh) + τ i) * 2) ∧
      s' ((r * (nPol * nCh) + i) * 2 + 1) = s ((σ r * (nPol * nCh) + τ i) * 2 + 1) := by
    have h1 := e6 _ _ (hσ.fwd r hr) (hτ.fwd i hi)
    have h2 := e6' r i hr hi
    have d0 := hd r i 0 hr hi (by decide)
    have d1 := hd r i 1 hr hi (by decide)
    rw [Nat.add_zero, Nat.add_zero] at d0
    rw [hrowed r i hr hi, hch i hi, d0, d1, h1.1, h1.2] at h2
    exact ⟨by simpa using h2.1.symm, by simpa using h2.2.symm⟩
  constructor
  · intro k hk
    rw [(e3 _ (by omega)).2, (e3' _ (by omega)).2]
    obtain rfl | rfl : k = 0 ∨ k = 1 := by omega
    · exact hs.1
    · exact hs.2
  · have hp0 : 0 < nPol := Nat.pos_of_ne_zero (by rintro rfl; simp at hi)
    rw [e7' r i hr hi, e7 _ _ (hσ.fwd r hr) (hτ.fwd i hi), m1 i hi, m2 r _ hr (Nat.mod_lt _ hp0), hpol i hi, hs.1, hs.2]

/-- **C138** A block and the same block with its rows in the order `σ` and the samples of every row `r` in an order `τ r`,
written with row normalisation. The symbols, factors and values that are read are in that other order. -/
theorem row_permuted (sq : Fl → Fl) {e : Encoder} {b l : Nat → ℚ} {L : ℚ} (hT : Table e b l L)
    (hb : Supported bits) (hq : e.quantCount = 2 ^ bits) (hR : 0 < nR)
    (h : Holds nR (nPol * nCh) A D data) {σ σ' : Nat → Nat} {τ τ' : Nat → Nat → Nat} (hσ : Perm nR σ σ')
    (hτ : ∀ r, r < nR → Perm (nPol * nCh) (τ r) (τ' r))
    (h' : Holds nR (nPol * nCh) A' (fun r i => D (σ r) (τ r i)) data')
    (dith dith' : Nat → Nat) (hd : ∀ r i k, r < nR → i < nPol * nCh → k < 2 →
      dith' ((r * (nPol * nCh) + i) * 2 + k) = dith ((σ r * (nPol * nCh) + τ r i) * 2 + k))
    (fuel : Nat) {packed packed' : Mem 8} {unpacked unpacked' out out' : Buf Nat}
    (hp : packed.len = blockSize nR (symbolCount nR nPol nCh) bits)
    (hp' : packed'.len = blockSize nR (symbolCount nR nPol nCh) bits)
    (hu : unpacked.len = symbolCount nR nPol nCh) (hu' : unpacked'.len = symbolCount nR nPol nCh)
    (ho : out.len = symbolCount nR nPol nCh) (ho' : out'.len = symbolCount nR nPol nCh)
    (dflt dflt' : DataRow Cx) (rows rows' : Block Cx) :
    ∃ d d' x x', writeBlock (encData .row sq e nPol nCh nAnt dith fuel data) bits nR (symbolCount nR nPol nCh)
        packed unpacked = .ok d ∧
      writeBlock (encData .row sq e nPol nCh nAnt dith' fuel data') bits nR (symbolCount nR nPol nCh)
        packed' unpacked' = .ok d' ∧
      readBlock (decData .row e nPol nCh nAnt A) bits nR (symbolCount nR nPol nCh) nR dflt d out rows = .ok x ∧
      readBlock (decData .row e nPol nCh nAnt A') bits nR (symbolCount nR nPol nCh) nR dflt' d' out' rows' = .ok x' ∧
      (∀ r, r < nR → (metaView nR d').get r = (metaView nR d).get (σ r)) ∧
      ∀ r i, r < nR → i < nPol * nCh →
        (∀ k, k < 2 → symbolAt bits (4 * nR) d' ((r * (nPol * nCh) + i) * 2 + k) =
          symbolAt bits (4 * nR) d ((σ r * (nPol * nCh) + τ r i) * 2 + k)) ∧
        (x'.get r).vis.get i = (x.get (σ r)).vis.get (τ r i) := by
  obtain ⟨d, x, s, e1, e2, e3, e4, e5, e6⟩ := row_block (nAnt := nAnt) sq hT hb hq hR h dith fuel hp hu ho dflt rows
  obtain ⟨d', x', s', e1', e2', e3', e4', e5', e6'⟩ := row_block (nAnt := nAnt) sq hT hb hq hR h' dith' fuel hp' hu' ho'
    dflt' rows'
  have hmax : ∀ r, r < nR → maxFold (fun i => D (σ r) (τ r i)) (nPol * nCh) = maxFold (D (σ r)) (nPol * nCh) := by
    intro r hr
    refine maxFold_reindex (fun i hi => ⟨τ' r i, (hτ r hr).back i hi, ?_⟩) (fun i hi => ⟨τ r i, (hτ r hr).fwd i hi, rfl⟩)
    rw [(hτ r hr).right i hi]
  have m1 : ∀ r, r < nR → (metaView nR d').get r = (metaView nR d).get (σ r) := by
    intro r hr
    rw [e4' r hr, e4 _ (hσ.fwd r hr), hmax r hr]
  refine ⟨d, d', x, x', e1, e1', e2, e2', m1, fun r i hr hi => ?_⟩
  have hlt : ∀ {r i}, r < nR → i < nPol * nCh → (r * (nPol * nCh) + i) * 2 + 1 < symbolCount nR nPol nCh := by
    intro r i hr hi
    rw [symbolCount_eq]
    have := flat_lt hr hi
    omega
  have hi' := (hτ r hr).fwd i hi
  have hl1 := hlt hr hi
  have hl2 := hlt (hσ.fwd r hr) hi'
  have hs : s' ((r * (nPol * nCh) + i) * 2) = s ((σ r * (nPol * nCh) + τ r i) * 2) ∧
      s' ((r * (nPol * nCh) + i) * 2 + 1) = s ((σ r * (nPol * nCh) + τ r i) * 2 + 1) := by
    have h1 := e5 _ _ (hσ.fwd r hr) hi'
    have h2 := e5' r i hr hi
    have d0 := hd r i 0 hr hi (by decide)
    have d1 := hd r i 1 hr hi (by decide)
    rw [Nat.add_zero, Nat.add_zero] at d0
    rw [hmax r hr, d0, d1, h1.1, h1.2] at h2
    exact ⟨by simpa using h2.1.symm, by simpa using h2.2.symm⟩
  constructor
  · intro k hk
    rw [(e3 _ (by omega)).2, (e3' _ (by omega)).2]
    obtain rfl | rfl : k = 0 ∨ k = 1 := by omega
    · exact hs.1
    · exact hs.2
  · rw [e6' r i hr hi, e6 _ _ (hσ.fwd r hr) hi', m1 r hr, hs.1, hs.2]

/-- **C138** Two blocks of weights; sample number `k` of the second has the smallest weight of sample `κ k` of the first. The
stored maximum is the same, and the symbols and the weights that are read are in the order `κ`. -/
theorem weights_permuted {rows rows' : Block Fl} (hb : Supported bits) (hp : 1 ≤ nPol) (hc : 0 < nCh)
    {W W' : Nat → Nat → Nat → ℚ} (hlen : rows'.len = rows.len) (hW : Weight.HoldsWeights nPol nCh rows W)
    (hW' : Weight.HoldsWeights nPol nCh rows' W') (hF : Weight.FloatWeights rows.len nCh nPol W)
    (hF' : Weight.FloatWeights rows.len nCh nPol W') {m : Nat → Nat → ℚ}
    (hm : ∀ r c, r < rows.len → c < nCh → Weight.IsMin nPol (W r c) (m r c))
    {κ κ' : Nat → Nat} (hκ : Perm (rows.len * nCh) κ κ')
    (hm' : ∀ r c, r < rows.len → c < nCh →
      Weight.IsMin nPol (W' r c) (m (κ (r * nCh + c) / nCh) (κ (r * nCh + c) % nCh)))
    {packed packed' : Mem 8} {unpacked unpacked' out out' : Buf Nat}
    (hp1 : packed.len = blockSize Weight.metaDataFloatCount (Weight.symbolCount rows.len nCh) bits)
    (hp2 : packed'.len = blockSize Weight.metaDataFloatCount (Weight.symbolCount rows.len nCh) bits)
    (hu1 : unpacked.len = Weight.symbolCount rows.len nCh) (hu2 : unpacked'.len = Weight.symbolCount rows.len nCh)
    (ho1 : out.len = Weight.symbolCount rows.len nCh) (ho2 : out'.len = Weight.symbolCount rows.len nCh)
    (dflt dflt' : DataRow Fl) (dest dest' : Block Fl) :
    ∃ d d' x x', writeBlock (encWeight nPol nCh bits rows) bits Weight.metaDataFloatCount
        (Weight.symbolCount rows.len nCh) packed unpacked = .ok d ∧
      writeBlock (encWeight nPol nCh bits rows') bits Weight.metaDataFloatCount
        (Weight.symbolCount rows.len nCh) packed' unpacked' = .ok d' ∧
      readBlock (decWeight nPol nCh bits) bits Weight.metaDataFloatCount
        (Weight.symbolCount rows.len nCh) rows.len dflt d out dest = .ok x ∧
      readBlock (decWeight nPol nCh bits) bits Weight.metaDataFloatCount
        (Weight.symbolCount rows.len nCh) rows.len dflt' d' out' dest' = .ok x' ∧
      (metaView 1 d').get 0 = (metaView 1 d).get 0 ∧
      (∀ k, k < rows.len * nCh → symbolAt bits 4 d' k = symbolAt bits 4 d (κ k)) ∧
      ∀ r c p p', r < rows.len → c < nCh → p < nPol → p' < nPol → (x'.get r).vis.get (c * nPol + p) =
        (x.get (κ (r * nCh + c) / nCh)).vis.get (κ (r * nCh + c) % nCh * nPol + p') := by
  have split : ∀ k, k / nCh * nCh + k % nCh = k := fun k => by rw [Nat.mul_comm]; exact Nat.div_add_mod k nCh
  have hrow : ∀ {k}, k < rows.len * nCh → k / nCh < rows.len := fun h => (Nat.div_lt_iff_lt_mul hc).2 h
  obtain ⟨M, sym, hM, hw, henc⟩ := weightWrites hb hp hW hF hm
  obtain ⟨M', sym', hM', hw', henc'⟩ := weightWrites hb hp hW' (by rw [hlen]; exact hF')
    (m := fun r c => m (κ (r * nCh + c) / nCh) (κ (r * nCh + c) % nCh)) (by rw [hlen]; exact hm')
  rw [hlen] at hM' hw' henc'
  have hto : ∀ r c, r < rows.len → c < nCh → ∃ r' c', r' < rows.len ∧ c' < nCh ∧
      m (κ (r' * nCh + c') / nCh) (κ (r' * nCh + c') % nCh) = m r c := by
    intro r c hr hc'
    have hk := flat_lt hr hc'
    refine ⟨κ' (r * nCh + c) / nCh, κ' (r * nCh + c) % nCh, hrow (hκ.back _ hk), Nat.mod_lt _ hc, ?_⟩
    have hdm : (r * nCh + c) / nCh = r := by
      rw [Nat.mul_comm, Nat.mul_add_div hc, Nat.div_eq_of_lt hc', Nat.add_zero]
    have hmm : (r * nCh + c) % nCh = c := by
      rw [Nat.mul_comm, Nat.mul_add_mod, Nat.mod_eq_of_lt hc']
    rw [split, hκ.right _ hk, hdm, hmm]
  obtain rfl : M' = M := by
    refine Weight.IsBlockMax.unique hM' ⟨fun r c hr hc' => hM.1 _ _ (hrow (hκ.fwd _ (flat_lt hr hc'))) (Nat.mod_lt _ hc), ?_⟩
    rcases hM.2 with ⟨h1, r, c, hr, hc', e⟩ | ⟨h1, h2⟩
    · obtain ⟨r', c', hr', hc'', e'⟩ := hto r c hr hc'
      exact Or.inl ⟨h1, r', c', hr', hc'', e'.trans e⟩
    · exact Or.inr ⟨h1, fun r c hr hc' => h2 _ _ (hrow (hκ.fwd _ (flat_lt hr hc'))) (Nat.mod_lt _ hc)⟩
  have hsym : ∀ k, k < rows.len * nCh → sym'.get k = sym.get (κ k) := by
    intro k hk
    have h1 := henc (κ k / nCh) (κ k % nCh) (hrow (hκ.fwd k hk)) (Nat.mod_lt _ hc)
    have h2 := henc' (k / nCh) (k % nCh) (hrow hk) (Nat.mod_lt _ hc)
    rw [split] at h2
    rw [split, h2] at h1
    exact Option.some.inj h1
  obtain ⟨blk, l1, g1, g2, g3⟩ := writeBlock_spec hb hw
  obtain ⟨d, e1, k1, v1⟩ := g1 packed unpacked hp1 hu1
  have hH := End.holds_of_writes hb hw hp1 hu1 e1
  obtain ⟨x, e2, -, gx⟩ := readBlock_spec (weightReads (nR := rows.len) (nPol := nPol) (bits := bits) hc) hH.metaLen hH.symLen
    hH.below hH.size hH.floats hH.symbols dflt out ho1 dest
  obtain ⟨blk', l1', g1', g2', g3'⟩ := writeBlock_spec hb hw'
  obtain ⟨d', e1', k1', v1'⟩ := g1' packed' unpacked' hp2 hu2
  have hH' := End.holds_of_writes hb hw' hp2 hu2 e1'
  obtain ⟨x', e2', -, gx'⟩ := readBlock_spec (weightReads (nR := rows.len) (nPol := nPol) (bits := bits) hc) hH'.metaLen
    hH'.symLen hH'.below hH'.size hH'.floats hH'.symbols dflt' out' ho2 dest'
  have at1 : ∀ {s0 : Buf Nat} {m0 : Buf Fl} {b0 : Mem 8},
      End.BlockHolds bits Weight.metaDataFloatCount (Weight.symbolCount rows.len nCh) m0 s0 b0 →
      ∀ k, k < Weight.symbolCount rows.len nCh → symbolAt bits 4 b0 k = s0.get k := by
    intro s0 m0 b0 h0 k hk
    obtain ⟨t, c1, -, c3⟩ := unpack_any hb h0.size ⟨Weight.symbolCount rows.len nCh, fun _ => 0⟩ rfl
    obtain ⟨t', c1', -, c3'⟩ := h0.symbols ⟨Weight.symbolCount rows.len nCh, fun _ => 0⟩ rfl
    rw [c1] at c1'
    obtain rfl : t = t' := by simpa using c1'
    exact (c3 k hk).symm.trans (c3' k hk)
  refine ⟨d, d', x, x', e1, e1', e2, e2', (hH'.floats 0 (by decide)).trans (hH.floats 0 (by decide)).symm, fun k hk => ?_,
    fun r c p p' hr hc' hp0 hp0' => ?_⟩
  · rw [at1 hH _ (hκ.fwd k hk), at1 hH' k hk, hsym k hk]
  · have hk := flat_lt hr hc'
    have hr' := hrow (hκ.fwd _ hk)
    have dm : ∀ {c p : Nat}, p < nPol → (c * nPol + p) / nPol = c := by
      intro c p hp
      rw [Nat.mul_comm, Nat.mul_add_div (by omega), Nat.div_eq_of_lt hp, Nat.add_zero]
    rw [(gx' r hr).2 _ (flat_lt hc' hp0), (gx _ hr').2 _ (flat_lt (Nat.mod_lt _ hc) hp0'), dm hp0, dm hp0', split, hsym _ hk]

/-- The real parts of one row of one channel and two polarisations after writing it with two bits and reading it back.
Not in the code. -/
def twoPols (norm : Norm) (D : Nat → ℚ) : Option (List Fl) :=
  match writeBlock (encData norm id Row.smallTable 2 1 2 (fun _ => 0) 10
      ⟨1, fun _ => ⟨0, 1, ⟨2, fun i => ⟨.fin (D i), .fin (D i)⟩⟩⟩⟩) 2 (dataMetaCount norm 1 2 1 2) 4
      ⟨4 * dataMetaCount norm 1 2 1 2 + 1, fun _ => 0⟩ ⟨4, fun _ => 0⟩ with
  | .ok d =>
    match readBlock (decData norm Row.smallTable 2 1 2 (fun _ => (0, 1))) 2 (dataMetaCount norm 1 2 1 2) 4 1
        ⟨0, 0, ⟨0, fun _ => ⟨.nan, .nan⟩⟩⟩ d ⟨4, fun _ => 0⟩ ⟨0, fun _ => ⟨0, 0, ⟨0, fun _ => ⟨.nan, .nan⟩⟩⟩⟩ with
    | .ok x => some [((x.get 0).vis.get 0).re, ((x.get 0).vis.get 1).re]
    | _ => none
  | _ => none

/-- With row normalisation the polarisations do influence each other: `3/4` comes back as `3/4` beside `3/4`, and as `3`
beside `3`. With row-frequency normalisation this cannot happen. -/
theorem row_polarisations_not_separate :
    twoPols .row (fun _ => 3 / 4) = some [.fin (3 / 4), .fin (3 / 4)] ∧
    twoPols .row (fun i => if i = 0 then 3 / 4 else 3) = some [.fin 3, .fin 3] ∧
    twoPols .rf (fun i => if i = 0 then 3 / 4 else 3) = some [.fin (3 / 4), .fin 3] := by
  decide +kernel

/-! ## Examples -/

/-- Exchanging two things is an order. -/
theorem perm_two : Perm 2 (fun i => 1 - i) (fun i => 1 - i) := by
  constructor <;> intro i h <;> omega

/-- Two rows of one channel and two polarisations; polarisation 1 is `a` or `b`, which can be NaN. -/
example (a b : Cx) (packed packed' : Mem 8) (hl : packed.len = 26) (hl' : packed'.len = 26) (dflt : DataRow Cx)
    (rows : Block Cx) :
    ∃ d d' x x', writeBlock (encData .rf id Row.smallTable 2 1 2 (fun _ => 0) 5
        ⟨2, fun _ => ⟨0, 1, ⟨2, fun i => if i = 0 then ⟨.fin 1, .fin (1 / 2)⟩ else a⟩⟩⟩) 2 6 8 packed ⟨8, fun _ => 0⟩ = .ok d ∧
      writeBlock (encData .rf id Row.smallTable 2 1 2 (fun _ => 0) 5
        ⟨2, fun _ => ⟨0, 1, ⟨2, fun i => if i = 0 then ⟨.fin 1, .fin (1 / 2)⟩ else b⟩⟩⟩) 2 6 8 packed' ⟨8, fun _ => 0⟩ = .ok d' ∧
      readBlock (decData .rf Row.smallTable 2 1 2 fun _ => (0, 1)) 2 6 8 2 dflt d ⟨8, fun _ => 0⟩ rows = .ok x ∧
      readBlock (decData .rf Row.smallTable 2 1 2 fun _ => (0, 1)) 2 6 8 2 dflt d' ⟨8, fun _ => 0⟩ rows = .ok x' ∧
      (metaView 6 d').get 2 = (metaView 6 d).get 2 ∧ (x'.get 1).vis.get 0 = (x.get 1).vis.get 0 := by
  obtain ⟨d, d', x, x', e1, e2, e3, e4, -, h2, h3⟩ := rf_polarisations (nR := 2) (nPol := 2) (nCh := 1) (nAnt := 2) (bits := 2)
    (A := fun _ => (0, 1)) (A' := fun _ => (0, 1)) (D := fun _ i => if i = 0 then ⟨.fin 1, .fin (1 / 2)⟩ else a)
    (D' := fun _ i => if i = 0 then ⟨.fin 1, .fin (1 / 2)⟩ else b) id Row.smallTable_ok (Or.inl rfl) rfl (by decide)
    (data := ⟨2, fun _ => ⟨0, 1, ⟨2, fun i => if i = 0 then ⟨.fin 1, .fin (1 / 2)⟩ else a⟩⟩⟩)
    (data' := ⟨2, fun _ => ⟨0, 1, ⟨2, fun i => if i = 0 then ⟨.fin 1, .fin (1 / 2)⟩ else b⟩⟩⟩)
    ⟨rfl, fun _ _ => rfl, fun _ _ => rfl, fun _ _ _ _ => rfl⟩ ⟨rfl, fun _ _ => rfl, fun _ _ => rfl, fun _ _ _ _ => rfl⟩
    (p := 0) (by decide)
    (fun r ch _ hch => by
      obtain rfl : ch = 0 := by omega
      rfl)
    (fun _ => 0) (fun _ => 0) (fun _ _ _ _ _ _ => rfl) 5 hl hl' (unpacked := ⟨8, fun _ => 0⟩) (unpacked' := ⟨8, fun _ => 0⟩)
    (out := ⟨8, fun _ => 0⟩) (out' := ⟨8, fun _ => 0⟩) rfl rfl rfl rfl dflt dflt rows rows
  exact ⟨d, d', x, x', e1, e2, e3, e4, h2 0 (by decide), (h3 1 0 (by decide) (by decide)).2⟩

/-- Two rows of one channel and two polarisations with any values: rows and polarisations exchanged. -/
example (D : Nat → Nat → Cx) (packed packed' : Mem 8) (hl : packed.len = 26) (hl' : packed'.len = 26) (dflt : DataRow Cx)
    (rows : Block Cx) :
    ∃ d d', writeBlock (encData .rf id Row.smallTable 2 1 2 (fun _ => 0) 5 ⟨2, fun r => ⟨0, 1, ⟨2, D r⟩⟩⟩) 2 6 8 packed
        ⟨8, fun _ => 0⟩ = .ok d ∧
      writeBlock (encData .rf id Row.smallTable 2 1 2 (fun _ => 0) 5 ⟨2, fun r => ⟨0, 1, ⟨2, fun i => D (1 - r) (1 - i)⟩⟩⟩) 2 6 8
        packed' ⟨8, fun _ => 0⟩ = .ok d' ∧
      (metaView 6 d').get 0 = (metaView 6 d).get 1 ∧ (metaView 6 d').get 2 = (metaView 6 d).get 5 ∧
      symbolAt 2 24 d' 0 = symbolAt 2 24 d 6 := by
  obtain ⟨d, d', x, x', e1, e2, -, -, h1, h2, h3⟩ := rf_permuted (nR := 2) (nPol := 2) (nCh := 1) (nAnt := 2) (bits := 2)
    (A := fun _ => (0, 1)) (A' := fun _ => (0, 1)) (D := D) id Row.smallTable_ok (Or.inl rfl) rfl (by decide)
    (data := ⟨2, fun r => ⟨0, 1, ⟨2, D r⟩⟩⟩) (data' := ⟨2, fun r => ⟨0, 1, ⟨2, fun i => D (1 - r) (1 - i)⟩⟩⟩)
    ⟨rfl, fun _ _ => rfl, fun _ _ => rfl, fun _ _ _ _ => rfl⟩ perm_two perm_two perm_two
    (fun i hi => by
      obtain rfl | rfl : i = 0 ∨ i = 1 := by omega
      · rfl
      · rfl)
    ⟨rfl, fun _ _ => rfl, fun _ _ => rfl, fun _ _ _ _ => rfl⟩
    (fun _ => 0) (fun _ => 0) (fun _ _ _ _ _ _ => rfl) 5 hl hl' (unpacked := ⟨8, fun _ => 0⟩) (unpacked' := ⟨8, fun _ => 0⟩)
    (out := ⟨8, fun _ => 0⟩) (out' := ⟨8, fun _ => 0⟩) rfl rfl rfl rfl dflt dflt rows rows
  exact ⟨d, d', e1, e2, h1 0 (by decide), h2 0 0 (by decide) (by decide), (h3 0 0 (by decide) (by decide)).1 0 (by decide)⟩

/-- Two rows of two samples with any values: rows exchanged, and the samples of row 0 exchanged. -/
example (D : Nat → Nat → Cx) (packed packed' : Mem 8) (hl : packed.len = 10) (hl' : packed'.len = 10) (dflt : DataRow Cx)
    (rows : Block Cx) :
    ∃ d d', writeBlock (encData .row id Row.smallTable 1 2 2 (fun _ => 0) 5 ⟨2, fun r => ⟨0, 1, ⟨2, D r⟩⟩⟩) 2 2 8 packed
        ⟨8, fun _ => 0⟩ = .ok d ∧
      writeBlock (encData .row id Row.smallTable 1 2 2 (fun _ => 0) 5
        ⟨2, fun r => ⟨0, 1, ⟨2, fun i => D (1 - r) (if r = 0 then 1 - i else i)⟩⟩⟩) 2 2 8 packed' ⟨8, fun _ => 0⟩ = .ok d' ∧
      (metaView 2 d').get 0 = (metaView 2 d).get 1 ∧ symbolAt 2 8 d' 0 = symbolAt 2 8 d 6 := by
  obtain ⟨d, d', x, x', e1, e2, -, -, h1, h2⟩ := row_permuted (nR := 2) (nPol := 1) (nCh := 2) (nAnt := 2) (bits := 2)
    (A := fun _ => (0, 1)) (A' := fun _ => (0, 1)) (D := D) id Row.smallTable_ok (Or.inl rfl) rfl (by decide)
    (data := ⟨2, fun r => ⟨0, 1, ⟨2, D r⟩⟩⟩)
    (data' := ⟨2, fun r => ⟨0, 1, ⟨2, fun i => D (1 - r) (if r = 0 then 1 - i else i)⟩⟩⟩)
    ⟨rfl, fun _ _ => rfl, fun _ _ => rfl, fun _ _ _ _ => rfl⟩ perm_two
    (τ := fun r i => if r = 0 then 1 - i else i) (τ' := fun r i => if r = 0 then 1 - i else i)
    (fun r hr => by
      obtain rfl | rfl : r = 0 ∨ r = 1 := by omega
      · exact perm_two
      · exact ⟨fun _ h => h, fun _ h => h, fun _ _ => rfl, fun _ _ => rfl⟩)
    ⟨rfl, fun _ _ => rfl, fun _ _ => rfl, fun _ _ _ _ => rfl⟩
    (fun _ => 0) (fun _ => 0) (fun _ _ _ _ _ _ => rfl) 5 hl hl' (unpacked := ⟨8, fun _ => 0⟩) (unpacked' := ⟨8, fun _ => 0⟩)
    (out := ⟨8, fun _ => 0⟩) (out' := ⟨8, fun _ => 0⟩) rfl rfl rfl rfl dflt dflt rows rows
  exact ⟨d, d', e1, e2, h1 0 (by decide), (h2 0 0 (by decide) (by decide)).1 0 (by decide)⟩

/-- The weights 1 and 2 of one row, and the same weights exchanged. -/
example (packed packed' : Mem 8) (hl : packed.len = 5) (hl' : packed'.len = 5) (dflt : DataRow Fl) (dest : Block Fl) :
    ∃ d d', writeBlock (encWeight 1 2 2 ⟨1, fun _ => ⟨0, 1, ⟨2, fun i => .fin ((i : ℚ) + 1)⟩⟩⟩) 2 1 2 packed
        ⟨2, fun _ => 0⟩ = .ok d ∧
      writeBlock (encWeight 1 2 2 ⟨1, fun _ => ⟨0, 1, ⟨2, fun i => .fin (((1 - i : Nat) : ℚ) + 1)⟩⟩⟩) 2 1 2 packed'
        ⟨2, fun _ => 0⟩ = .ok d' ∧
      symbolAt 2 4 d' 0 = symbolAt 2 4 d 1 := by
  have hr : ∀ i : Nat, i < 2 → Fl.Repr Fl.binary32 ((i : ℚ) + 1) := by
    intro i hi
    have := Fl.repr32_nat (n := i + 1) (by omega)
    push_cast at this
    exact this
  have hlt : ∀ i : Nat, i < 2 → (i : ℚ) + 1 < 2 ^ (128 : ℤ) := by
    intro i hi
    have h1 : (i : ℚ) < 2 := by exact_mod_cast hi
    refine lt_of_lt_of_le (b := (4 : ℚ)) (by linarith) (by norm_num)
  obtain ⟨d, d', x, x', e1, e2, -, -, -, h, -⟩ := weights_permuted (nPol := 1) (nCh := 2) (bits := 2)
    (rows := ⟨1, fun _ => ⟨0, 1, ⟨2, fun i => .fin ((i : ℚ) + 1)⟩⟩⟩)
    (rows' := ⟨1, fun _ => ⟨0, 1, ⟨2, fun i => .fin (((1 - i : Nat) : ℚ) + 1)⟩⟩⟩) (Or.inl rfl) (by decide) (by decide)
    (W := fun _ c _ => (c : ℚ) + 1) (W' := fun _ c _ => ((1 - c : Nat) : ℚ) + 1) (m := fun _ c => (c : ℚ) + 1) rfl
    (fun r _ => ⟨rfl, fun c p _ hp => by
      obtain rfl : p = 0 := by omega
      simp⟩)
    (fun r _ => ⟨rfl, fun c p _ hp => by
      obtain rfl : p = 0 := by omega
      simp⟩)
    (fun r c p _ hc _ => ⟨by positivity, hlt c hc, hr c hc⟩)
    (fun r c p _ hc _ => ⟨by positivity, hlt (1 - c) (by omega), hr (1 - c) (by omega)⟩)
    (fun r c _ _ => ⟨⟨0, by decide, rfl⟩, fun _ _ => le_refl _⟩) perm_two
    (fun r c hr hc => by
      have hr : r = 0 := by
        have : r < 1 := hr
        omega
      have e : (1 - (r * 2 + c)) % 2 = 1 - c := by
        rw [hr]
        omega
      refine ⟨⟨0, by decide, ?_⟩, fun p _ => ?_⟩ <;> simp only [e]
      exact le_refl _)
    hl hl' (unpacked := ⟨2, fun _ => 0⟩) (unpacked' := ⟨2, fun _ => 0⟩) (out := ⟨2, fun _ => 0⟩)
    (out' := ⟨2, fun _ => 0⟩) rfl rfl rfl rfl dflt dflt dest dest
  exact ⟨d, d', e1, e2, h 0 (by decide)⟩

end Dysco.Layout
