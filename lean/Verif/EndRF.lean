import Verif.EndProps
import Verif.RFFloat

/-!
# C61: row-frequency normalised data after closing and reopening
-/

namespace Dysco.End
open BytePacker Layout StMan TimeBlock
open Stochastic hiding valueOf

/-- What decoding the rows of one encoded block gives, seen through the metadata and symbols of any run of the
encoder. -/
theorem decoded_value {nR nPol nCh nAnt bits : Nat} {A A' : Nat → Nat × Nat} {data : Block Cx} {sq : Fl → Fl}
    {e : Encoder} {b l : Nat → ℚ} {L : ℚ} (hT : Table e b l L) {norm : Norm}
    (hA : norm = .af → AF.AntennasBelow nR nAnt A ∧ A' = A)
    {dith : Nat → Nat} {fuel : Nat} {metaB : Buf Fl} {sym : Buf Nat} (he : e.quantCount = 2 ^ bits)
    (hwr : Writes (encData norm sq e nPol nCh nAnt dith fuel data) (dataMetaCount norm nR nPol nCh nAnt)
      (symbolCount nR nPol nCh) (2 ^ bits) metaB sym)
    {m : Buf Fl} {s : Buf Nat}
    (henc : encData norm sq e nPol nCh nAnt dith fuel data
      ⟨dataMetaCount norm nR nPol nCh nAnt, fun _ => .nan⟩ ⟨symbolCount nR nPol nCh, fun _ => 0⟩ =
        some (some (m, s)))
    {dest dest' : Block Cx} {r i : Nat} (hr : r < nR) (hd : r < dest.len) (hi : i < nPol * nCh)
    (hdec : decData norm e nPol nCh nAnt A m s r dest = some dest') :
    (dest'.get r).vis.get i = valueOf norm e nPol nCh nAnt A' metaB sym r i := by
  obtain ⟨m1, s1, x1, x2, x3, x4, x5⟩ := hwr.same ⟨dataMetaCount norm nR nPol nCh nAnt, fun _ => .nan⟩
    ⟨symbolCount nR nPol nCh, fun _ => 0⟩ rfl (fun _ _ => rfl) rfl
  rw [henc] at x1
  simp only [Option.some.injEq, Prod.mk.injEq] at x1
  obtain ⟨rfl, rfl⟩ := x1
  have hR := dataReads (nR := nR) (nPol := nPol) (nCh := nCh) (nAnt := nAnt) (A := A) norm hT
    (fun hn => (hA hn).1)
  obtain ⟨d, e1, _, _, _, e5⟩ := hR.row m s dest r x2 x3 (fun j hj => by
    rw [x5 j hj, he]; exact hwr.below j hj) hr hd
  rw [e1] at hdec
  obtain rfl : d = dest' := by simpa using hdec
  rw [e5 i hi, hR.congr m metaB s sym x2 hwr.metaLen x3 hwr.symLen x4 x5 r i hr hi]
  cases norm with
  | af => rw [(hA rfl).2]
  | rf => rfl
  | row => rfl

/-- The decoded visibilities of a row-frequency normalised block, from any metadata and symbols that the
encoder writes. -/
theorem rf_values {nR nPol nCh nAnt bits : Nat} {A A' : Nat → Nat × Nat} {D : Nat → Nat → Cx} {data : Block Cx}
    {sq : Fl → Fl} {e : Encoder} {b l : Nat → ℚ} {L : ℚ} (hT : Table e b l L)
    (hLr : Fl.Repr Fl.binary32 L) (hlo : -(5 / 4 * L) ≤ l 0) {δ : ℚ}
    (hA : Accurate (encFn Fl.r32 e true) e.decode L δ)
    (h : Dysco.Holds nR (nPol * nCh) A D data)
    (hF : ∀ r i, r < nR → i < nPol * nCh → FloatVis (D r i))
    (M : Nat → Nat → ℚ) (hM : ∀ r p, r < nR → p < nPol → RF.RowPolMax nPol nCh D r p (M r p))
    (hM2 : ∀ r p, r < nR → p < nPol → M r p ≤ 2 ^ (127 : ℤ) ∧ M r p / L ≤ 2 ^ (127 : ℤ))
    (K : Nat → ℚ) (hK1 : ∀ i, i < nPol * nCh → K i ≤ 1)
    (hK : ∀ r i m, r < nR → i < nPol * nCh → Counted (D r i) m → m ≤ K i * M r (i % nPol))
    (hK0 : ∀ i, i < nPol * nCh → K i = 1 ∨ ∃ r m, r < nR ∧ Counted (D r i) m ∧ m ≠ 0)
    {dith : Nat → Nat} {fuel : Nat} {metaB : Buf Fl} {sym : Buf Nat} (he : e.quantCount = 2 ^ bits)
    (hwr : Writes (encData .rf sq e nPol nCh nAnt dith fuel data) (dataMetaCount .rf nR nPol nCh nAnt)
      (symbolCount nR nPol nCh) (2 ^ bits) metaB sym) {r i : Nat} (hr : r < nR) (hi : i < nPol * nCh) :
    ((D r i).re.isFinite = false → (valueOf .rf e nPol nCh nAnt A' metaB sym r i).re = .nan) ∧
    ((D r i).im.isFinite = false → (valueOf .rf e nPol nCh nAnt A' metaB sym r i).im = .nan) ∧
    ∀ m, Counted (D r i) m → ∀ a,
      ((D r i).re = .fin a → ∃ y, (valueOf .rf e nPol nCh nAnt A' metaB sym r i).re = .fin y ∧
        |y - a| ≤ RF.floatBound δ (K i) (M r (i % nPol)) L ∧ (M r (i % nPol) = 0 → y = 0)) ∧
      ((D r i).im = .fin a → ∃ y, (valueOf .rf e nPol nCh nAnt A' metaB sym r i).im = .fin y ∧
        |y - a| ≤ RF.floatBound δ (K i) (M r (i % nPol)) L ∧ (M r (i % nPol) = 0 → y = 0)) := by
  have hn : nR * (nPol * nCh) * 2 ≤ symbolCount nR nPol nCh := symbolCount_eq.ge
  have hm : nPol * nCh + nR * nPol ≤ dataMetaCount .rf nR nPol nCh nAnt := by
    simp only [dataMetaCount, RF.metaDataCount]
    rw [Nat.mul_add, Nat.mul_comm nPol nR]
  obtain ⟨m1, s1, e1, f1⟩ := RF.rf_error_float hT hLr hlo true dith hA h hF M hM hM2 K hK1 hK hK0
    ⟨dataMetaCount .rf nR nPol nCh nAnt, fun _ => .nan⟩ hm ⟨symbolCount nR nPol nCh, fun _ => 0⟩ hn
  obtain ⟨m2, s2, e2, f2⟩ := RF.rf_nan (RF := Fl.r32) (RD := Fl.r64) hT true dith h
    ⟨dataMetaCount .rf nR nPol nCh nAnt, fun _ => .nan⟩ hm ⟨symbolCount nR nPol nCh, fun _ => 0⟩ hn
  rw [e1] at e2
  simp only [Option.some.injEq, Prod.mk.injEq] at e2
  obtain ⟨rfl, rfl⟩ := e2
  have henc : encData .rf sq e nPol nCh nAnt dith fuel data
      ⟨dataMetaCount .rf nR nPol nCh nAnt, fun _ => .nan⟩ ⟨symbolCount nR nPol nCh, fun _ => 0⟩ =
        some (some (m1, s1)) := by
    simp only [encData, e1, Option.map_some]
  obtain ⟨d1, g1, _, _, _, v1⟩ := f1 ⟨nR, fun _ => ⟨0, 0, ⟨0, fun _ => ⟨.nan, .nan⟩⟩⟩⟩ r (A r).1 (A r).2 hr hr
  have ev := decoded_value (A := A) (A' := A') hT (by intro hx; simp at hx) he hwr henc hr
    (dest := ⟨nR, fun _ => ⟨0, 0, ⟨0, fun _ => ⟨.nan, .nan⟩⟩⟩⟩) hr hi g1
  obtain ⟨d2, g2, v2⟩ := f2 ⟨nR, fun _ => ⟨0, 0, ⟨0, fun _ => ⟨.nan, .nan⟩⟩⟩⟩ r (A r).1 (A r).2 hr hr
  rw [g1] at g2
  obtain rfl : d1 = d2 := by simpa using g2
  rw [← ev]
  exact ⟨(v2 i hi).1, (v2 i hi).2, fun m hc a => v1 i m hi hc a⟩

/-- **C61** for row-frequency normalised data. `M row p` is the largest counted component of polarisation `p`
of a row. `K b i` bounds the visibilities at index `i` of block `b`, relative to `M`. Every row can be read
back, in any order; finite components of a counted visibility have an error of at most one distance between
levels, scaled with `K` and `M`, plus the rounding of `float`, and non-finite ones are NaN. -/
theorem rf_end_to_end {κ : Type} {rows ants : Nat} {mt : Man} (h : NewTable rows ants mt)
    (nRow nRow' : Nat) (ops : List BlockOp) (m0 : Man) (hs : List.Forall₂ SameShape m0.columns mt.columns)
    (hlast : let m' := ops.foldl blockStep (newTable nRow rows ants mt)
      m'.nBlocks = 0 ∨ ∃ d, .write (m'.nBlocks - 1) (mt.columns.length - 1) d ∈ ops)
    {i : Nat} {c : Column} (hc : (newTable nRow rows ants mt).columns[i]? = some c)
    (hw : c.isData = true) (hnorm : c.norm = .rf) (hb : Supported c.bits)
    {sq : Fl → Fl} {e : Encoder} {bd l : Nat → ℚ} {L δ : ℚ} (hT : Table e bd l L) (he : e.quantCount = 2 ^ c.bits)
    (hLr : Fl.Repr Fl.binary32 L) (hlo : -(5 / 4 * L) ≤ l 0) (hsym : l 0 + L ≤ δ) (hgap : ∀ k, k + 1 < e.n → l (k + 1) - l k ≤ δ)
    {antOf : Nat → Nat × Nat} {p : Col.Params (DataRow Cx) κ} {q : Nat} {v : Nat → DataRow Cx}
    {s : Col.State (DataRow Cx) κ p.threads} (hrun : Run p rows q v s)
    (himp : Implements (dataCodec sq e antOf rows c) c rows i ops s.writes)
    {D : Nat → Nat → Cx} (hD : DataRows (c.nPol * c.nCh) (q * rows) v antOf D)
    (hF : ∀ row j, row < q * rows → j < c.nPol * c.nCh → FloatVis (D row j))
    {M : Nat → Nat → ℚ}
    (hM : ∀ row po, row < q * rows → po < c.nPol → RF.RowPolMax c.nPol c.nCh D row po (M row po))
    (hM2 : ∀ row po, row < q * rows → po < c.nPol → M row po ≤ 2 ^ (127 : ℤ) ∧ M row po / L ≤ 2 ^ (127 : ℤ))
    {K : Nat → Nat → ℚ} (hK1 : ∀ b j, b < q → j < c.nPol * c.nCh → K b j ≤ 1)
    (hK : ∀ row j m, row < q * rows → j < c.nPol * c.nCh → Counted (D row j) m →
      m ≤ K (row / rows) j * M row (j % c.nPol))
    (hK0 : ∀ b j, b < q → j < c.nPol * c.nCh → K b j = 1 ∨
      ∃ row m, row / rows = b ∧ Counted (D row j) m ∧ m ≠ 0) :
    ∃ r man, openFile nRow' m0 (ops.foldl blockStep (newTable nRow rows ants mt)).file = .ok r ∧
      prepare r = (man, true) ∧
      ∀ (calls : List (Call Cx)) (buf : Block Cx), GoodCalls c rows (q * rows) (c.nPol * c.nCh) calls →
        ∃ outs, getAll (dataCodec sq e antOf rows c) i calls ⟨man, Col.noBlock, buf⟩ = .ok outs ∧
          List.Forall₂ (fun x out => out.len = c.nPol * c.nCh ∧ ∀ j, j < c.nPol * c.nCh →
            ((D x.row j).re.isFinite = false → (out.get j).re = .nan) ∧
            ((D x.row j).im.isFinite = false → (out.get j).im = .nan) ∧
            ∀ m, Counted (D x.row j) m → ∀ a,
              ((D x.row j).re = .fin a → ∃ y, (out.get j).re = .fin y ∧
                |y - a| ≤ RF.floatBound δ (K (x.row / rows) j) (M x.row (j % c.nPol)) L ∧
                (M x.row (j % c.nPol) = 0 → y = 0)) ∧
              ((D x.row j).im = .fin a → ∃ y, (out.get j).im = .fin y ∧
                |y - a| ≤ RF.floatBound δ (K (x.row / rows) j) (M x.row (j % c.nPol)) L ∧
                (M x.row (j % c.nPol) = 0 → y = 0))) calls outs := by
  have hr0 := h.rowCount.1
  obtain ⟨r, man, e1, e2, metaB, sym, hgood, hread⟩ := data_end_to_end h nRow nRow' ops m0 hs hlast hc hw hb hT he
    hrun himp hD (by rw [hnorm]; intro hx; simp at hx)
  refine ⟨r, man, e1, e2, fun calls buf hcalls => ?_⟩
  obtain ⟨outs, g1, g2⟩ := hread calls buf hcalls
  refine ⟨outs, g1, ?_⟩
  rw [List.forall₂_iff_get] at g2 ⊢
  refine ⟨g2.1, fun k hk hk' => ?_⟩
  obtain ⟨l1, g⟩ := g2.2 k hk hk'
  refine ⟨l1, fun j hj => ?_⟩
  obtain ⟨hrow, _⟩ := hcalls _ (List.get_mem calls ⟨k, hk⟩)
  generalize calls.get ⟨k, hk⟩ = x at *
  have hbq : x.row / rows < q := (Nat.div_lt_iff_lt_mul hr0).mpr hrow
  have hmod : x.row % rows < rows := Nat.mod_lt _ hr0
  have hxr : x.row / rows * rows + x.row % rows = x.row := by rw [Nat.mul_comm]; exact Nat.div_add_mod _ _
  obtain ⟨dith, fuel, data, htb, hwr⟩ := hgood _ hbq
  have hn2 := hT.levels.two
  have hδ : 0 ≤ δ := by
    have h1 := hgap 0 (by omega)
    have h2 := hT.levels.asc 0 1 (by omega) (by omega)
    linarith
  rw [g j hj]
  rw [hnorm] at hwr ⊢
  have hdiv : ∀ r', r' < rows → (x.row / rows * rows + r') / rows = x.row / rows := by
    intro r' hr'
    rw [Nat.mul_comm, Nat.mul_add_div hr0, Nat.div_eq_of_lt hr', Nat.add_zero]
  have := rf_values (A' := fun r => antOf (x.row / rows * rows + r)) hT hLr hlo
    (dither_accurate hT Fl.r32 δ hδ hsym hgap) (hD.block hbq htb)
    (fun r i hr hi => hF _ i (flat_lt hbq hr) hi) (fun r => M (x.row / rows * rows + r))
    (fun r po hr hpo => hM _ po (flat_lt hbq hr) hpo) (fun r po hr hpo => hM2 _ po (flat_lt hbq hr) hpo)
    (K (x.row / rows)) (fun i hi => hK1 _ i hbq hi)
    (fun r i m hr hi hcm => by
      have := hK _ i m (flat_lt hbq hr) hi hcm
      rwa [hdiv r hr] at this)
    (fun i hi => by
      rcases hK0 _ i hbq hi with h1 | ⟨row, m, h1, h2, h3⟩
      · exact Or.inl h1
      · refine Or.inr ⟨row % rows, m, Nat.mod_lt _ hr0, ?_, h3⟩
        rw [← h1, Nat.mul_comm, Nat.div_add_mod]
        exact h2)
    he hwr hmod hj
  simp only [hxr] at this
  exact this

/-- The further hypotheses of `rf_end_to_end`: one block of two rows with two channels, of which the second is
at most half as bright as the first. The other hypotheses are met by `Row.smallTable_ok`. -/
example : DataRows (1 * 2) (1 * 2) (fun r => ⟨r, r + 1, ⟨2, fun i => ⟨.fin (RF.two r i), .fin 0⟩⟩⟩)
      (fun r => (r, r + 1)) (fun r i => ⟨.fin (RF.two r i), .fin 0⟩) ∧
    (∀ r i, FloatVis ⟨.fin (RF.two r i), .fin 0⟩) ∧
    (∀ r p, r < 1 * 2 → p < 1 → RF.RowPolMax 1 2 (fun r i => ⟨.fin (RF.two r i), .fin 0⟩) r p (RF.two r 0)) ∧
    (∀ r i m, Counted (⟨.fin (RF.two r i), .fin 0⟩ : Cx) m →
      m ≤ (if i = 0 then 1 else 1 / 2) * RF.two r 0) ∧
    (∃ r m, r / 2 = 0 ∧ Counted (⟨.fin (RF.two r 1), .fin 0⟩ : Cx) m ∧ m ≠ 0) := by
  obtain ⟨_, h2, h3, h4, r, m, h5, h6⟩ := RF.two_ok
  exact ⟨⟨fun _ _ => rfl, fun _ _ => rfl, fun _ _ _ _ => rfl⟩, h2, h3, h4, r, m, by omega, h6⟩

end Dysco.End
