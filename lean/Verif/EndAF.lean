import Verif.EndPrepare
import Verif.AFNan
import Verif.AFModerate

/-!
# C83: antenna-frequency normalised data after closing and reopening

This is the default normalisation of `dscompress`.
-/

namespace Dysco.End
open BytePacker Layout StMan TimeBlock
open Stochastic hiding valueOf
open Prepare (Lib encoder)
open Tools (Distribution)

/-- The stored factors of channel `c`, polarisation `po` and the two antennas are normal floats, `g` is their
product, and the largest level times `g` does not overflow. -/
def Factors (metaB : Buf Fl) (L : ℚ) (nPol nCh nAnt c po : Nat) (ab : Nat × Nat) (g : ℚ) : Prop :=
  ∃ g0 g1 g2, metaB.get (c * nPol + po) = .fin g0 ∧ (2 : ℚ) ^ (-126 : ℤ) ≤ g0 ∧
    metaB.get (nPol * nCh + (nAnt * po + ab.1)) = .fin g1 ∧ (2 : ℚ) ^ (-126 : ℤ) ≤ g1 ∧
    metaB.get (nPol * nCh + (nAnt * po + ab.2)) = .fin g2 ∧ (2 : ℚ) ^ (-126 : ℤ) ≤ g2 ∧
    g = g0 * (g1 * g2) ∧ L * g ≤ 2 ^ (127 : ℤ)

theorem Factors.pos {metaB : Buf Fl} {L : ℚ} {nPol nCh nAnt c po : Nat} {ab : Nat × Nat} {g : ℚ}
    (h : Factors metaB L nPol nCh nAnt c po ab g) : 0 < g := by
  obtain ⟨g0, g1, g2, _, h0, _, h1, _, h2, rfl, _⟩ := h
  have z := Fl.zp_pos (-126)
  exact mul_pos (lt_of_lt_of_le z h0) (mul_pos (lt_of_lt_of_le z h1) (lt_of_lt_of_le z h2))

/-- The fit of the block takes `N` iterations: with fewer the encoder does not end, with `N` or more it does, and
the factors that it stores are those of `metaB`. -/
def Needs (sq : Fl → Fl) (e : Stochastic.Encoder) (nR nPol nCh nAnt : Nat) (dith : Nat → Nat) (data : Block Cx)
    (N : Nat) (metaB : Buf Fl) : Prop :=
  ∀ fuel, (N ≤ fuel ↔ ∃ m s, encData .af sq e nPol nCh nAnt dith fuel data
      ⟨dataMetaCount .af nR nPol nCh nAnt, fun _ => .nan⟩ ⟨symbolCount nR nPol nCh, fun _ => 0⟩ =
        some (some (m, s)) ∧ ∀ j, j < nPol * nCh + nAnt * nPol → m.get j = metaB.get j)

/-- The decoded visibilities of an antenna-frequency normalised block, from any metadata and symbols that the
encoder writes. -/
theorem af_values {nR nPol nCh nAnt bits : Nat} {A : Nat → Nat × Nat} {D : Nat → Nat → Cx} {data : Block Cx}
    {sq : Fl → Fl} (hsq : AF.SqrtMono sq) {e : Encoder} {b l : Nat → ℚ} {L : ℚ} (hT : Table e b l L)
    (hLr : Fl.Repr Fl.binary32 L) (hlo : -(5 / 4 * L) ≤ l 0) {δ : ℚ}
    (hacc : Accurate (encFn Fl.r32 e true) e.decode L δ) (hc0 : 0 < nCh) (hR : 0 < nR)
    (h : Dysco.Holds nR (nPol * nCh) A D data) (hF : AF.FloatBlock nR (nPol * nCh) D)
    (hA : AF.AntennasBelow nR nAnt A) (hn : nAnt ≤ 2 ^ 14) (hrows : nR ≤ 2 ^ 24) (hsize : nR * nCh ≤ 2 ^ 24)
    (hM : AF.Moderate nR (nPol * nCh) A D)
    {dith : Nat → Nat} {fuel : Nat} {metaB : Buf Fl} {sym : Buf Nat} (he : e.quantCount = 2 ^ bits)
    (hwr : Writes (encData .af sq e nPol nCh nAnt dith fuel data) (dataMetaCount .af nR nPol nCh nAnt)
      (symbolCount nR nPol nCh) (2 ^ bits) metaB sym) :
    ∃ N, Needs sq e nR nPol nCh nAnt dith data N metaB ∧
      ∀ r c po, r < nR → c < nCh → po < nPol →
        ((D r (c * nPol + po)).re.isFinite = false →
          (valueOf .af e nPol nCh nAnt A metaB sym r (c * nPol + po)).re = .nan) ∧
        ((D r (c * nPol + po)).im.isFinite = false →
          (valueOf .af e nPol nCh nAnt A metaB sym r (c * nPol + po)).im = .nan) ∧
        (N ≤ 2000000 → (A r).1 ≠ (A r).2 → ∀ m g, Counted (D r (c * nPol + po)) m →
          Factors metaB L nPol nCh nAnt c po (A r) g → ∀ a,
          ((D r (c * nPol + po)).re = .fin a →
            ∃ y, (valueOf .af e nPol nCh nAnt A metaB sym r (c * nPol + po)).re = .fin y ∧
              |y - a| ≤ AF.afBound δ g a N) ∧
          ((D r (c * nPol + po)).im = .fin a →
            ∃ y, (valueOf .af e nPol nCh nAnt A metaB sym r (c * nPol + po)).im = .fin y ∧
              |y - a| ≤ AF.afBound δ g a N)) := by
  have hs : nR * (nPol * nCh) * 2 ≤ symbolCount nR nPol nCh := symbolCount_eq.ge
  have hcount : dataMetaCount .af nR nPol nCh nAnt = nPol * nCh + nAnt * nPol := by
    simp only [dataMetaCount, AF.metaDataCount]
    rw [Nat.mul_add, Nat.mul_comm nPol nAnt]
  obtain ⟨N, m1, s1, f1, f2, f3⟩ := AF.af_error_moderate hsq hT hLr hlo true dith hacc hc0 hR h hF hA hn hrows hsize hM
    ⟨dataMetaCount .af nR nPol nCh nAnt, fun _ => .nan⟩ hcount.ge ⟨symbolCount nR nPol nCh, fun _ => 0⟩ hs
  obtain ⟨m2, s2, x1, x2, x3, x4, x5⟩ := hwr.same ⟨dataMetaCount .af nR nPol nCh nAnt, fun _ => .nan⟩
    ⟨symbolCount nR nPol nCh, fun _ => 0⟩ rfl (fun _ _ => rfl) rfl
  have hNf : N ≤ fuel := f2 fuel (m2, s2) x1
  have hm := f1 fuel hNf
  have henc : encData .af sq e nPol nCh nAnt dith fuel data
      ⟨dataMetaCount .af nR nPol nCh nAnt, fun _ => .nan⟩ ⟨symbolCount nR nPol nCh, fun _ => 0⟩ =
        some (some (m1, s1)) := hm
  have em : m2 = m1 := by
    rw [henc] at x1
    simp only [Option.some.injEq, Prod.mk.injEq] at x1
    exact x1.1.symm
  rw [em] at x4
  rw [hcount] at x4
  refine ⟨N, fun fuel' => ⟨fun hf => ⟨_, _, f1 fuel' hf, x4⟩, fun ⟨_, _, ho, _⟩ => f2 fuel' _ ho⟩, ?_⟩
  intro r c po hr hc hpo
  have hi := AF.chan_lt (nPol := nPol) hc hpo
  obtain ⟨d1, g1, _, _, v1⟩ := f3 ⟨nR, fun _ => ⟨0, 0, ⟨0, fun _ => ⟨.nan, .nan⟩⟩⟩⟩ r hr hr
  have ev := decoded_value (A := A) (A' := A) (norm := .af) hT (fun _ => ⟨hA, rfl⟩) he hwr henc hr
    (dest := ⟨nR, fun _ => ⟨0, 0, ⟨0, fun _ => ⟨.nan, .nan⟩⟩⟩⟩) hr hi g1
  rcases AF.af_nonfinite (RF := Fl.r32) (RD := Fl.r64) (sq := sq) hT true dith hc0 h hA
      ⟨dataMetaCount .af nR nPol nCh nAnt, fun _ => .nan⟩ (Nat.le_refl _) ⟨symbolCount nR nPol nCh, fun _ => 0⟩ (Nat.le_refl _) fuel with
    h0 | ⟨m3, s3, e3, f4⟩
  · rw [hm] at h0
    simp at h0
  rw [hm] at e3
  simp only [Option.some.injEq, Prod.mk.injEq] at e3
  obtain ⟨rfl, rfl⟩ := e3
  obtain ⟨d2, g2, _, _, _, v2⟩ := f4 ⟨nR, fun _ => ⟨0, 0, ⟨0, fun _ => ⟨.nan, .nan⟩⟩⟩⟩ r hr hr
  rw [g1] at g2
  obtain rfl : d1 = d2 := by simpa using g2
  rw [← ev]
  refine ⟨(v2 c po hc hpo).1, (v2 c po hc hpo).2, ?_⟩
  rintro hN hcr m g hcm ⟨q0, q1, q2, k0, l0, k1, l1, k2, l2, rfl, hov⟩ a
  have i1 := AF.antIndex_lt (hA r hr).1 hpo
  have i2 := AF.antIndex_lt (hA r hr).2 hpo
  exact v1 hN hcr c po m q0 q1 q2 hc hpo hcm (by rw [x4 _ (by omega)]; exact k0) l0
    (by rw [x4 _ (by omega)]; exact k1) l1 (by rw [x4 _ (by omega)]; exact k2) l2 hov a

/-- **C83**: antenna-frequency normalised data of moderate range. Every row can be read back, in any order.
Non-finite components are NaN. Let `N b` be the number of iterations that the fit of block `b` takes and `metaB b`
the factors stored with the block. If `N b` is at most two million, the finite components of a counted
cross-correlation with normal factors have an error of at most one distance between levels times the factors, plus
a relative error of `(N b + 6) / 12000000` and an underflow term. -/
theorem af_end_to_end {κ : Type} {rows ants : Nat} {mt : Man} (h : NewTable rows ants mt)
    (nRow nRow' : Nat) (ops : List BlockOp) (m0 : Man) (hs : List.Forall₂ SameShape m0.columns mt.columns)
    (hlast : let m' := ops.foldl blockStep (newTable nRow rows ants mt)
      m'.nBlocks = 0 ∨ ∃ d, .write (m'.nBlocks - 1) (mt.columns.length - 1) d ∈ ops)
    {i : Nat} {c : Column} (hc : (newTable nRow rows ants mt).columns[i]? = some c)
    (hw : c.isData = true) (hnorm : c.norm = .af) (hb : Supported c.bits) (hc0 : 0 < c.nCh)
    {sq : Fl → Fl} (hsq : AF.SqrtMono sq)
    {e : Encoder} {bd l : Nat → ℚ} {L δ : ℚ} (hT : Table e bd l L) (he : e.quantCount = 2 ^ c.bits)
    (hLr : Fl.Repr Fl.binary32 L) (hlo : -(5 / 4 * L) ≤ l 0) (hsym : l 0 + L ≤ δ) (hgap : ∀ k, k + 1 < e.n → l (k + 1) - l k ≤ δ)
    {antOf : Nat → Nat × Nat} {p : Col.Params (DataRow Cx) κ} {q : Nat} {v : Nat → DataRow Cx}
    {s : Col.State (DataRow Cx) κ p.threads} (hrun : Run p rows q v s)
    (himp : Implements (dataCodec sq e antOf rows c) c rows i ops s.writes)
    {D : Nat → Nat → Cx} (hD : DataRows (c.nPol * c.nCh) (q * rows) v antOf D)
    (hF : AF.FloatBlock (q * rows) (c.nPol * c.nCh) D) (hA : AF.AntennasBelow (q * rows) ants antOf)
    (hM : AF.Moderate (q * rows) (c.nPol * c.nCh) antOf D)
    (hn : ants ≤ 2 ^ 14) (hrows : rows ≤ 2 ^ 24) (hsize : rows * c.nCh ≤ 2 ^ 24) :
    ∃ r man, openFile nRow' m0 (ops.foldl blockStep (newTable nRow rows ants mt)).file = .ok r ∧
      prepare r = (man, true) ∧
      ∃ (metaB : Nat → Buf Fl) (N : Nat → Nat),
      (∀ b, b < q → ∃ dith data, TableBlock rows v b data ∧ Needs sq e rows c.nPol c.nCh ants dith data (N b) (metaB b)) ∧
      ∀ (calls : List (Call Cx)) (buf : Block Cx), GoodCalls c rows (q * rows) (c.nPol * c.nCh) calls →
        ∃ outs, getAll (dataCodec sq e antOf rows c) i calls ⟨man, Col.noBlock, buf⟩ = .ok outs ∧
          List.Forall₂ (fun x out => out.len = c.nPol * c.nCh ∧ ∀ ch po, ch < c.nCh → po < c.nPol →
            ((D x.row (ch * c.nPol + po)).re.isFinite = false → (out.get (ch * c.nPol + po)).re = .nan) ∧
            ((D x.row (ch * c.nPol + po)).im.isFinite = false → (out.get (ch * c.nPol + po)).im = .nan) ∧
            (N (x.row / rows) ≤ 2000000 → (antOf x.row).1 ≠ (antOf x.row).2 → ∀ m g,
              Counted (D x.row (ch * c.nPol + po)) m →
              Factors (metaB (x.row / rows)) L c.nPol c.nCh ants ch po (antOf x.row) g → ∀ a,
              ((D x.row (ch * c.nPol + po)).re = .fin a → ∃ y, (out.get (ch * c.nPol + po)).re = .fin y ∧
                |y - a| ≤ AF.afBound δ g a (N (x.row / rows))) ∧
              ((D x.row (ch * c.nPol + po)).im = .fin a → ∃ y, (out.get (ch * c.nPol + po)).im = .fin y ∧
                |y - a| ≤ AF.afBound δ g a (N (x.row / rows))))) calls outs := by
  have hr0 := h.rowCount.1
  obtain ⟨r, man, e1, e2, metaB, sym, hgood, hread⟩ := data_end_to_end h nRow nRow' ops m0 hs hlast hc hw hb hT he
    hrun himp hD (fun _ => ⟨hc0, hA⟩)
  have hn2 := hT.levels.two
  have hδ : 0 ≤ δ := by
    have h1 := hgap 0 (by omega)
    have h2 := hT.levels.asc 0 1 (by omega) (by omega)
    linarith
  have hval : ∀ b, ∃ N, b < q → (∃ dith data, TableBlock rows v b data ∧
      Needs sq e rows c.nPol c.nCh ants dith data N (metaB b)) ∧
      ∀ r ch po, r < rows → ch < c.nCh → po < c.nPol →
        ((D (b * rows + r) (ch * c.nPol + po)).re.isFinite = false → (valueOf .af e c.nPol c.nCh ants
          (fun r => antOf (b * rows + r)) (metaB b) (sym b) r (ch * c.nPol + po)).re = .nan) ∧
        ((D (b * rows + r) (ch * c.nPol + po)).im.isFinite = false → (valueOf .af e c.nPol c.nCh ants
          (fun r => antOf (b * rows + r)) (metaB b) (sym b) r (ch * c.nPol + po)).im = .nan) ∧
        (N ≤ 2000000 → (antOf (b * rows + r)).1 ≠ (antOf (b * rows + r)).2 → ∀ m g,
          Counted (D (b * rows + r) (ch * c.nPol + po)) m →
          Factors (metaB b) L c.nPol c.nCh ants ch po (antOf (b * rows + r)) g → ∀ a,
          ((D (b * rows + r) (ch * c.nPol + po)).re = .fin a → ∃ y, (valueOf .af e c.nPol c.nCh ants
            (fun r => antOf (b * rows + r)) (metaB b) (sym b) r (ch * c.nPol + po)).re = .fin y ∧
              |y - a| ≤ AF.afBound δ g a N) ∧
          ((D (b * rows + r) (ch * c.nPol + po)).im = .fin a → ∃ y, (valueOf .af e c.nPol c.nCh ants
            (fun r => antOf (b * rows + r)) (metaB b) (sym b) r (ch * c.nPol + po)).im = .fin y ∧
              |y - a| ≤ AF.afBound δ g a N)) := by
    intro b
    by_cases hbq : b < q
    · obtain ⟨dith, fuel, data, htb, hwr⟩ := hgood b hbq
      rw [hnorm] at hwr
      obtain ⟨N, k1, k2⟩ := af_values hsq hT hLr hlo (dither_accurate hT Fl.r32 δ hδ hsym hgap) hc0 hr0
        (hD.block hbq htb) (fun r i hr hi => hF _ i (flat_lt hbq hr) hi) (fun r hr => hA _ (flat_lt hbq hr)) hn hrows hsize
        (fun r i hr hi => hM _ i (flat_lt hbq hr) hi) he hwr
      exact ⟨N, fun _ => ⟨⟨dith, data, htb, k1⟩, k2⟩⟩
    · exact ⟨0, fun hx => absurd hx hbq⟩
  choose N hN using hval
  refine ⟨r, man, e1, e2, metaB, N, fun b hbq => (hN b hbq).1, fun calls buf hcalls => ?_⟩
  obtain ⟨outs, g1, g2⟩ := hread calls buf hcalls
  refine ⟨outs, g1, ?_⟩
  rw [List.forall₂_iff_get] at g2 ⊢
  refine ⟨g2.1, fun k hk hk' => ?_⟩
  obtain ⟨l1, g⟩ := g2.2 k hk hk'
  refine ⟨l1, fun ch po hch hpo => ?_⟩
  obtain ⟨hrow, _⟩ := hcalls _ (List.get_mem calls ⟨k, hk⟩)
  generalize calls.get ⟨k, hk⟩ = x at *
  have hbq : x.row / rows < q := (Nat.div_lt_iff_lt_mul hr0).mpr hrow
  have hmod : x.row % rows < rows := Nat.mod_lt _ hr0
  have hxr : x.row / rows * rows + x.row % rows = x.row := by rw [Nat.mul_comm]; exact Nat.div_add_mod _ _
  rw [g _ (AF.chan_lt hch hpo), hnorm]
  have := (hN _ hbq).2 _ ch po hmod hch hpo
  simp only [hxr] at this
  exact this

/-- The hypotheses about the data, for one block of two rows and two channels. -/
example : DataRows (1 * 2) (1 * 2) (fun r => ⟨0, 1, ⟨2, AF.moderateVis r⟩⟩) AF.sampleAnt AF.moderateVis ∧
    AF.FloatBlock (1 * 2) (1 * 2) AF.moderateVis ∧ AF.AntennasBelow (1 * 2) 2 AF.sampleAnt ∧
    AF.Moderate (1 * 2) (1 * 2) AF.sampleAnt AF.moderateVis ∧ AF.SqrtMono AF.coarseSqrt := by
  refine ⟨⟨fun _ _ => rfl, fun _ _ => rfl, fun _ _ _ _ => rfl⟩, ?_, ?_, ?_, AF.coarseSqrt_mono⟩
  · intro r i _ _
    unfold AF.moderateVis
    split_ifs <;> exact ⟨AF.isFloat_of_cast (by decide +kernel), AF.isFloat_of_cast (by decide +kernel)⟩
  · intro r _
    exact ⟨by norm_num [AF.sampleAnt], by norm_num [AF.sampleAnt]⟩
  · intro r i hr hi
    have hr' : r = 0 ∨ r = 1 := by omega
    have hi' : i = 0 ∨ i = 1 := by omega
    rcases hr' with rfl | rfl <;> rcases hi' with rfl | rfl <;>
      refine ⟨?_, ?_⟩ <;> simp [AF.moderateVis, AF.Cross, AF.sampleAnt] <;> norm_num

/-- **C83** for the quantisers that `DyscoDataColumn::Prepare` builds. For `concrete_quantised` with `N` levels the distance
is `ratio`: about `25 / N` of the largest level for the truncated Gaussian, `3 / N` for the uniform one. -/
theorem prepared_af {κ : Type} {rows ants : Nat} {mt : Man} (h : NewTable rows ants mt)
    (nRow nRow' : Nat) (ops : List BlockOp) (m0 : Man) (hs : List.Forall₂ SameShape m0.columns mt.columns)
    (hlast : let m' := ops.foldl blockStep (newTable nRow rows ants mt)
      m'.nBlocks = 0 ∨ ∃ d, .write (m'.nBlocks - 1) (mt.columns.length - 1) d ∈ ops)
    {i : Nat} {c : Column} (hc : (newTable nRow rows ants mt).columns[i]? = some c)
    (hw : c.isData = true) (hnorm : c.norm = .af) (hb : Supported c.bits) (hc0 : 0 < c.nCh)
    {sq : Fl → Fl} (hsq : AF.SqrtMono sq)
    {e : Stochastic.Encoder} {gr : Grid} (hd : Quantised e c.bits gr)
    {antOf : Nat → Nat × Nat} {p : Col.Params (DataRow Cx) κ} {q : Nat} {v : Nat → DataRow Cx}
    {s : Col.State (DataRow Cx) κ p.threads} (hrun : Run p rows q v s)
    (himp : Implements (dataCodec sq e antOf rows c) c rows i ops s.writes)
    {D : Nat → Nat → Cx} (hD : DataRows (c.nPol * c.nCh) (q * rows) v antOf D)
    (hF : AF.FloatBlock (q * rows) (c.nPol * c.nCh) D) (hA : AF.AntennasBelow (q * rows) ants antOf)
    (hM : AF.Moderate (q * rows) (c.nPol * c.nCh) antOf D)
    (hn : ants ≤ 2 ^ 14) (hrows : rows ≤ 2 ^ 24) (hsize : rows * c.nCh ≤ 2 ^ 24) :
    ∃ r man, openFile nRow' m0 (ops.foldl blockStep (newTable nRow rows ants mt)).file = .ok r ∧
      prepare r = (man, true) ∧
      ∃ (metaB : Nat → Buf Fl) (N : Nat → Nat),
      (∀ b, b < q → ∃ dith data, TableBlock rows v b data ∧ Needs sq e rows c.nPol c.nCh ants dith data (N b) (metaB b)) ∧
      ∀ (calls : List (Call Cx)) (buf : Block Cx), GoodCalls c rows (q * rows) (c.nPol * c.nCh) calls →
        ∃ outs, getAll (dataCodec sq e antOf rows c) i calls ⟨man, Col.noBlock, buf⟩ = .ok outs ∧
          List.Forall₂ (fun x out => out.len = c.nPol * c.nCh ∧ ∀ ch po, ch < c.nCh → po < c.nPol →
            ((D x.row (ch * c.nPol + po)).re.isFinite = false → (out.get (ch * c.nPol + po)).re = .nan) ∧
            ((D x.row (ch * c.nPol + po)).im.isFinite = false → (out.get (ch * c.nPol + po)).im = .nan) ∧
            (N (x.row / rows) ≤ 2000000 → (antOf x.row).1 ≠ (antOf x.row).2 → ∀ m g,
              Counted (D x.row (ch * c.nPol + po)) m →
              Factors (metaB (x.row / rows)) gr.top c.nPol c.nCh ants ch po (antOf x.row) g → ∀ a,
              ((D x.row (ch * c.nPol + po)).re = .fin a → ∃ y, (out.get (ch * c.nPol + po)).re = .fin y ∧
                |y - a| ≤ AF.afBound gr.gap g a (N (x.row / rows))) ∧
              ((D x.row (ch * c.nPol + po)).im = .fin a → ∃ y, (out.get (ch * c.nPol + po)).im = .fin y ∧
                |y - a| ≤ AF.afBound gr.gap g a (N (x.row / rows))))) calls outs := by
  obtain ⟨bd, l, L, δ, u2, -, hδ, u4, u5⟩ := hd
  obtain ⟨r, man, g1, g2, metaB, N, g3, g4⟩ := af_end_to_end h nRow nRow' ops m0 hs hlast hc hw hnorm hb hc0 hsq u2.table u2.count
    u2.float u2.low u2.sym u2.gap hrun himp hD hF hA hM hn hrows hsize
  refine ⟨r, man, g1, g2, metaB, N, g3, fun calls buf hcalls => ?_⟩
  obtain ⟨outs, k1, k2⟩ := g4 calls buf hcalls
  refine ⟨outs, k1, k2.imp ?_⟩
  rintro x out ⟨l1, g⟩
  refine ⟨l1, fun ch po hch hpo => ⟨(g ch po hch hpo).1, (g ch po hch hpo).2.1, fun hN hcr m f hm hf a => ?_⟩⟩
  have hpos : 0 < f := hf.pos
  have hf' : Factors (metaB (x.row / rows)) L c.nPol c.nCh ants ch po (antOf x.row) f := by
    obtain ⟨q0, q1, q2, t0, t1, t2, t3, t4, t5, t6, t7⟩ := hf
    exact ⟨q0, q1, q2, t0, t1, t2, t3, t4, t5, t6, le_trans (mul_le_mul_of_nonneg_right u5 hpos.le) t7⟩
  have hle : ∀ k, AF.afBound δ f a k ≤ AF.afBound gr.gap f a k := by
    intro k
    unfold AF.afBound
    have := mul_le_mul_of_nonneg_right (mul_le_mul_of_nonneg_right hδ hpos.le) (by norm_num : (0 : ℚ) ≤ 1 + 1 / 8000000)
    linarith
  obtain ⟨z1, z2⟩ := (g ch po hch hpo).2.2 hN hcr m f hm hf' a
  refine ⟨fun ha => ?_, fun ha => ?_⟩
  · obtain ⟨y, y1, y2⟩ := z1 ha
    exact ⟨y, y1, le_trans y2 (hle _)⟩
  · obtain ⟨y, y1, y2⟩ := z2 ha
    exact ⟨y, y1, le_trans y2 (hle _)⟩

end Dysco.End
