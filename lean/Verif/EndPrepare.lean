import Verif.EndRF
import Verif.PrepareProps

/-!
# C79: the round trip with the quantisers that `DyscoDataColumn::Prepare` builds

The bounds of C61 hold for any table. Here they are made concrete: what remains is a number of bits and a normalisation.
-/

namespace Dysco.End

open BytePacker Layout StMan TimeBlock
open Prepare (Lib Usable encoder sqrt3 uniform_usable truncated_usable φ_5_2)
open Stochastic (Encoder)
open Quantile (GslNormal trunc_range)
open Tools (Distribution)
open Normal

/-- Relative to the largest value, the largest distance between neighbouring levels; `N` is the number of levels. -/
def ratio (d : Distribution) (N : ℚ) : ℚ :=
  match d with
  | .uniform => 3 / N + 1 / 400000
  | _ => 25 / N + 1 / 80000

/-- The uniform quantiser. -/
theorem uniform_ratio (bits : Nat) (h2 : 2 ≤ bits) (h16 : bits ≤ 16) (lib : Lib) (fuel : Nat) (e0 d0 : Nat → Fl) :
    ∃ e b l L δ, encoder lib fuel .uniform bits e0 d0 = some e ∧ Usable e (2 ^ bits) L δ b l ∧
      δ / L ≤ ratio .uniform ((2 ^ bits - 1 : Nat) : ℚ) ∧ 1 ≤ L ∧ L ≤ 5 / 2 := by
  obtain ⟨e, b, l, L, u1, u2, u3⟩ := uniform_usable bits h2 h16 lib fuel e0 d0
  have hq4 : 2 ^ 2 ≤ 2 ^ bits := Nat.pow_le_pow_right (by norm_num) h2
  generalize hN : 2 ^ bits - 1 = N at *
  have hN3 : 3 ≤ N := by omega
  have hN3' : (3 : ℚ) ≤ N := by exact_mod_cast hN3
  have hinv : (1 : ℚ) / N ≤ 1 / 3 := one_div_le_one_div_of_le (by norm_num) hN3'
  have hinv0 : (0 : ℚ) < 1 / N := by positivity
  have hb := abs_le.mp u3
  have s1 : sqrt3 ≤ 17321 / 10000 := by norm_num [sqrt3]
  have s2 : 1732 / 1000 ≤ sqrt3 := by norm_num [sqrt3]
  have m1 := mul_le_mul_of_nonneg_left (by linarith : 2 / 3 ≤ 1 - 1 / (N : ℚ)) (by linarith : 0 ≤ sqrt3)
  have m2 := mul_le_mul_of_nonneg_left (by linarith : 1 - 1 / (N : ℚ) ≤ 1) (by linarith : 0 ≤ sqrt3)
  have hL : sqrt3 * (6666 / 10000) ≤ L := by linarith [hb.1]
  have hL1 : 1 ≤ L := by linarith
  refine ⟨e, b, l, L, _, u1, u2, ?_, hL1, by linarith [hb.2]⟩
  rw [div_le_iff₀ (by linarith)]
  have e1 : (2 : ℚ) / N = 2 * (1 / N) := by ring
  have e2 : (3 : ℚ) / N = 3 * (1 / N) := by ring
  simp only [ratio]
  rw [e1, e2]
  generalize (1 : ℚ) / N = u at *
  have hr : 0 ≤ 3 * u + 1 / 400000 := by linarith
  have hL2 : sqrt3 * (1 - u - 5 / 10 ^ 7) ≤ L := by linarith [hb.1]
  refine le_trans ?_ (mul_le_mul_of_nonneg_left hL2 hr)
  have h3 : 0 ≤ u * (1 - 3 * u) := mul_nonneg hinv0.le (by linarith)
  have : sqrt3 * (2 * u + 1 / 10 ^ 6) ≤ sqrt3 * ((3 * u + 1 / 400000) * (1 - u - 5 / 10 ^ 7)) := by
    refine mul_le_mul_of_nonneg_left ?_ (by linarith)
    linarith
  linarith

/-- The truncated Gaussian quantiser with the truncation 2.5 that `dscompress` sets. -/
theorem truncated_ratio (bits : Nat) (h8 : 8 ≤ bits) (h16 : bits ≤ 16) {lib : Lib} (hG : GslNormal 2.5 lib.p0 lib.Q)
    (fuel : Nat) (e0 d0 : Nat → Fl) :
    ∃ e b l L δ, encoder lib fuel .truncatedGaussian bits e0 d0 = some e ∧ Usable e (2 ^ bits) L δ b l ∧
      δ / L ≤ ratio .truncatedGaussian ((2 ^ bits - 1 : Nat) : ℚ) ∧ 1 ≤ L ∧ L ≤ 5 / 2 := by
  have hq8 : 2 ^ 8 ≤ 2 ^ bits := Nat.pow_le_pow_right (by norm_num) h8
  obtain ⟨t0, t1⟩ := trunc_range (τ := 2.5) (by norm_num)
  have hN : 255 ≤ 2 ^ bits - 1 := by omega
  have hNR : (255 : ℝ) ≤ ((2 ^ bits - 1 : Nat) : ℝ) := by exact_mod_cast hN
  have hNQ : (255 : ℚ) ≤ ((2 ^ bits - 1 : Nat) : ℚ) := by exact_mod_cast hN
  obtain ⟨e, b, l, L, u1, u2, u3, u4⟩ := truncated_usable bits (by omega) h16 (τ := 2.5) (by norm_num) (by norm_num) hG fuel
    (δ := (5748 / 100) * (1 / ((2 ^ bits - 1 : Nat) : ℚ) + 1 / 2 ^ 21)) (by
      have g : (0 : ℝ) < ((2 ^ bits - 1 : Nat) : ℝ)⁻¹ := by positivity
      push_cast
      have e1 : (1 - 2 * Φ (-2.5)) / ((2 ^ bits - 1 : Nat) : ℝ) ≤ 1 / ((2 ^ bits - 1 : Nat) : ℝ) :=
        div_le_div_of_nonneg_right (by linarith) (by linarith)
      have h1 := mul_le_mul_of_nonneg_right φ_5_2
        (by positivity : (0 : ℝ) ≤ 5748 / 100 * (1 / ((2 ^ bits - 1 : Nat) : ℝ) + 1 / 2 ^ 21))
      generalize ((2 ^ bits - 1 : Nat) : ℝ) = n at *
      norm_num at h1 e1 ⊢
      linarith) e0 d0
  have hL : (2.35 : ℝ) ≤ (L : ℝ) := by
    by_contra hcon
    have h1 := strictMono_Φ (not_le.mp hcon)
    have h2 := le_Φ_diff (B := 2.5) (x := 2.35) (y := 2.5) (by norm_num) (by norm_num) (le_refl _)
    have h3 := φ_5_2
    have h4 := (abs_le.mp u4).1
    have h5 : 1 / 2 / ((2 ^ bits - 1 : Nat) : ℝ) * (1 - 2 * Φ (-2.5)) ≤ 1 / 510 := by
      have h6 : 1 / 2 / ((2 ^ bits - 1 : Nat) : ℝ) ≤ 1 / 510 := by
        rw [div_div, div_le_div_iff₀ (by linarith) (by norm_num)]
        linarith
      have := mul_le_mul h6 (by linarith : 1 - 2 * Φ (-2.5) ≤ 1) (by linarith) (by norm_num)
      linarith
    rw [Φ_neg] at h4 h5
    norm_num at h1 h2 h3 h4 h5
    linarith
  have hLQ : 2.35 ≤ L := by
    have : ((2.35 : ℚ) : ℝ) ≤ L := by push_cast; norm_num at hL ⊢; linarith
    exact_mod_cast this
  have hLQ2 : L ≤ 5 / 2 := by
    have : (L : ℝ) ≤ ((5 / 2 : ℚ) : ℝ) := by push_cast; norm_num at u3 ⊢; linarith
    exact_mod_cast this
  refine ⟨e, b, l, L, _, u1, u2, ?_, by norm_num at hLQ; linarith, hLQ2⟩
  rw [div_le_iff₀ (by norm_num at hLQ; linarith)]
  simp only [ratio]
  rw [show (25 : ℚ) / ((2 ^ bits - 1 : Nat) : ℚ) = 25 * (1 / ((2 ^ bits - 1 : Nat) : ℚ)) by ring]
  have g : (0 : ℚ) < 1 / ((2 ^ bits - 1 : Nat) : ℚ) := by positivity
  generalize (1 : ℚ) / ((2 ^ bits - 1 : Nat) : ℚ) = u at *
  have := mul_le_mul_of_nonneg_left hLQ (by positivity : 0 ≤ 25 * u + 1 / 80000)
  norm_num at this ⊢
  linarith

/-- The cases that are made concrete: uniform quantisation, and the default of `dscompress` with at least 8 bits. -/
def Concrete (lib : Lib) (d : Distribution) (bits : Nat) : Prop :=
  (d = .uniform ∧ 2 ≤ bits) ∨ (d = .truncatedGaussian ∧ 8 ≤ bits ∧ GslNormal 2.5 lib.p0 lib.Q)

theorem concrete_table {lib : Lib} {d : Distribution} {bits : Nat} (h : Concrete lib d bits) (h16 : bits ≤ 16)
    (fuel : Nat) (e0 d0 : Nat → Fl) :
    ∃ e b l L δ, encoder lib fuel d bits e0 d0 = some e ∧ Usable e (2 ^ bits) L δ b l ∧
      δ / L ≤ ratio d ((2 ^ bits - 1 : Nat) : ℚ) ∧ 1 ≤ L ∧ L ≤ 5 / 2 := by
  rcases h with ⟨rfl, h2⟩ | ⟨rfl, h8, hG⟩
  · exact uniform_ratio bits h2 h16 lib fuel e0 d0
  · exact truncated_ratio bits h8 h16 hG fuel e0 d0

/-- The precision of a quantiser: the largest distance between neighbouring levels, relative to the largest level and
absolute, and a bound on the largest level. -/
structure Grid where
  ratio : ℚ
  gap : ℚ
  top : ℚ

/-- The table of a quantiser with `bits` bits is usable and has this precision. -/
def Quantised (e : Encoder) (bits : Nat) (g : Grid) : Prop :=
  ∃ b l L δ, Usable e (2 ^ bits) L δ b l ∧ δ / L ≤ g.ratio ∧ δ ≤ g.gap ∧ 1 / 2 ≤ L ∧ L ≤ g.top

/-- The precision of the cases that are made concrete. -/
def grid (d : Distribution) (bits : Nat) : Grid :=
  ⟨ratio d ((2 ^ bits - 1 : Nat) : ℚ), 5 / 2 * ratio d ((2 ^ bits - 1 : Nat) : ℚ), 5 / 2⟩

theorem ratio_nonneg (d : Distribution) (n : ℚ) (hn : 0 ≤ n) : 0 ≤ ratio d n := by
  unfold ratio
  split <;> positivity

theorem concrete_quantised {lib : Lib} {d : Distribution} {bits : Nat} (h : Concrete lib d bits) (h16 : bits ≤ 16)
    {fuel : Nat} {e0 d0 : Nat → Fl} {e : Encoder} (hen : encoder lib fuel d bits e0 d0 = some e) :
    Quantised e bits (grid d bits) := by
  obtain ⟨e', b, l, L, δ, u1, u2, u3, u4, u5⟩ := concrete_table h h16 fuel e0 d0
  obtain rfl : e = e' := by rw [hen] at u1; simpa using u1
  refine ⟨b, l, L, δ, u2, u3, ?_, by linarith, u5⟩
  have hL : 0 < L := by linarith
  have h1 : δ ≤ ratio d ((2 ^ bits - 1 : Nat) : ℚ) * L := (div_le_iff₀ hL).mp u3
  refine le_trans h1 ?_
  show _ ≤ 5 / 2 * ratio d ((2 ^ bits - 1 : Nat) : ℚ)
  rw [mul_comm]
  exact mul_le_mul_of_nonneg_right u5 (ratio_nonneg d _ (Nat.cast_nonneg _))

theorem div_le_two {M L : ℚ} (hM : 0 ≤ M) (h : 1 / 2 ≤ L) : M / L ≤ 2 * M := by
  rw [div_le_iff₀ (by linarith)]
  have := mul_le_mul_of_nonneg_left h hM
  linarith

theorem div_small {M L : ℚ} (hM : 0 ≤ M) (h : 1 / 2 ≤ L) (h2 : M ≤ 2 ^ (126 : ℤ)) :
    M ≤ 2 ^ (127 : ℤ) ∧ M / L ≤ 2 ^ (127 : ℤ) := by
  have e : (2 : ℚ) ^ (127 : ℤ) = 2 * 2 ^ (126 : ℤ) := by norm_num
  have := div_le_two hM h
  rw [e]
  constructor <;> linarith

theorem row_bound {δ M L ρ Λ : ℚ} (hM : 0 ≤ M) (hρ : δ / L ≤ ρ) (h1 : 1 / 2 ≤ L) (h2 : L ≤ Λ) :
    Row.floatBound δ M L ≤ M * (ρ + 2 ^ (-22 : ℤ)) + (2 * M + Λ + 1) * 2 ^ (-149 : ℤ) := by
  unfold Row.floatBound
  have e1 : δ * (M / L) = M * (δ / L) := by ring
  have g1 := mul_le_mul_of_nonneg_left hρ hM
  have g2 : M / L ≤ 2 * M := div_le_two hM h1
  have g3 : (M / L + L + 1) * (2 : ℚ) ^ (-149 : ℤ) ≤ (2 * M + Λ + 1) * 2 ^ (-149 : ℤ) :=
    mul_le_mul_of_nonneg_right (by linarith) (by positivity)
  rw [e1]
  linarith

theorem rf_bound {δ K M L ρ Λ : ℚ} (hM : 0 ≤ M) (hK : 0 ≤ M * K) (hρ : δ / L ≤ ρ) (h1 : 1 / 2 ≤ L) (h2 : L ≤ Λ) :
    RF.floatBound δ K M L ≤ M * K * (ρ + 2 ^ (-21 : ℤ)) + (3 * M + 3 * Λ + 1) * 2 ^ (-149 : ℤ) := by
  unfold RF.floatBound
  have e1 : δ * K * (M / L) = M * K * (δ / L) := by ring
  have g1 := mul_le_mul_of_nonneg_left hρ hK
  have g2 : M / L ≤ 2 * M := div_le_two hM h1
  have g3 : (M + M / L + 3 * L + 1) * (2 : ℚ) ^ (-149 : ℤ) ≤ (3 * M + 3 * Λ + 1) * 2 ^ (-149 : ℤ) :=
    mul_le_mul_of_nonneg_right (by linarith) (by positivity)
  rw [e1]
  linarith

/-- The encoder of the next two theorems exists (`encoder_determined`), and the assumptions about the library can be met. -/
example : ∃ lib e, Concrete lib .truncatedGaussian 8 ∧
    encoder lib 0 .truncatedGaussian 8 (fun _ => .nan) (fun _ => .nan) = some e := by
  obtain ⟨p0, Q, h⟩ := Quantile.gslNormal_exists 2.5
  obtain ⟨e, _, h1, _⟩ := Prepare.encoder_determined ⟨fun _ => 0, p0, Q, fun _ => .nan⟩ 0 .truncatedGaussian 8 (by norm_num)
    (fun _ => .nan) (fun _ => .nan) (fun _ => .nan) (fun _ => .nan)
  exact ⟨_, e, Or.inr ⟨rfl, by norm_num, h⟩, h1⟩

/-- **C79** with C61: row normalised data. `M` is the largest counted component of a row. -/
theorem prepared_row {κ : Type} {rows ants : Nat} {mt : Man} (h : NewTable rows ants mt)
    (nRow nRow' : Nat) (ops : List BlockOp) (m0 : Man) (hs : List.Forall₂ SameShape m0.columns mt.columns)
    (hlast : let m' := ops.foldl blockStep (newTable nRow rows ants mt)
      m'.nBlocks = 0 ∨ ∃ d, .write (m'.nBlocks - 1) (mt.columns.length - 1) d ∈ ops)
    {i : Nat} {c : Column} (hc : (newTable nRow rows ants mt).columns[i]? = some c)
    (hw : c.isData = true) (hnorm : c.norm = .row) (hb : Supported c.bits)
    {sq : Fl → Fl} {e : Encoder} {g : Grid} (hd : Quantised e c.bits g)
    {antOf : Nat → Nat × Nat} {p : Col.Params (DataRow Cx) κ} {q : Nat} {v : Nat → DataRow Cx}
    {s : Col.State (DataRow Cx) κ p.threads} (hrun : Run p rows q v s)
    (himp : Implements (dataCodec sq e antOf rows c) c rows i ops s.writes)
    {D : Nat → Nat → Cx} (hD : DataRows (c.nPol * c.nCh) (q * rows) v antOf D)
    (hF : ∀ row j, row < q * rows → j < c.nPol * c.nCh → FloatVis (D row j))
    {M : Nat → ℚ} (hM : ∀ row, row < q * rows → IsMax (c.nPol * c.nCh) (D row) (M row))
    (hM2 : ∀ row, row < q * rows → M row ≤ 2 ^ (126 : ℤ)) :
    ∃ r man, openFile nRow' m0 (ops.foldl blockStep (newTable nRow rows ants mt)).file = .ok r ∧
      prepare r = (man, true) ∧
      ∀ (calls : List (Call Cx)) (buf : Block Cx), GoodCalls c rows (q * rows) (c.nPol * c.nCh) calls →
        ∃ outs, getAll (dataCodec sq e antOf rows c) i calls ⟨man, Col.noBlock, buf⟩ = .ok outs ∧
          List.Forall₂ (fun x out => out.len = c.nPol * c.nCh ∧ ∀ j, j < c.nPol * c.nCh →
            ((D x.row j).re.isFinite = false → (out.get j).re = .nan) ∧
            ((D x.row j).im.isFinite = false → (out.get j).im = .nan) ∧
            ∀ m, Counted (D x.row j) m → ∀ a,
              ((D x.row j).re = .fin a → ∃ y, (out.get j).re = .fin y ∧
                |y - a| ≤ M x.row * (g.ratio + 2 ^ (-22 : ℤ)) +
                  (2 * M x.row + g.top + 1) * 2 ^ (-149 : ℤ) ∧ (M x.row = 0 → y = 0)) ∧
              ((D x.row j).im = .fin a → ∃ y, (out.get j).im = .fin y ∧
                |y - a| ≤ M x.row * (g.ratio + 2 ^ (-22 : ℤ)) +
                  (2 * M x.row + g.top + 1) * 2 ^ (-149 : ℤ) ∧ (M x.row = 0 → y = 0))) calls outs := by
  obtain ⟨bd, l, L, δ, u2, u3, -, u4, u5⟩ := hd
  obtain ⟨r, man, g1, g2, g3⟩ := row_end_to_end h nRow nRow' ops m0 hs hlast hc hw hnorm hb u2.table u2.count u2.float u2.low
    u2.sym u2.gap hrun himp hD hF hM (fun row hr => div_small (hM row hr).1 u4 (hM2 row hr))
  refine ⟨r, man, g1, g2, fun calls buf hcalls => ?_⟩
  obtain ⟨outs, k1, k2⟩ := g3 calls buf hcalls
  refine ⟨outs, k1, ?_⟩
  rw [List.forall₂_iff_get] at k2 ⊢
  refine ⟨k2.1, fun k hk hk' => ?_⟩
  obtain ⟨l1, k3⟩ := k2.2 k hk hk'
  obtain ⟨hrow, _⟩ := hcalls _ (List.get_mem calls ⟨k, hk⟩)
  refine ⟨l1, fun j hj => ⟨(k3 j hj).1, (k3 j hj).2.1, fun m hm a => ?_⟩⟩
  have hle := row_bound (hM _ hrow).1 u3 u4 u5
  obtain ⟨z1, z2⟩ := (k3 j hj).2.2 m hm a
  refine ⟨fun ha => ?_, fun ha => ?_⟩
  · obtain ⟨y, y1, y2, y3⟩ := z1 ha
    exact ⟨y, y1, le_trans y2 hle, y3⟩
  · obtain ⟨y, y1, y2, y3⟩ := z2 ha
    exact ⟨y, y1, le_trans y2 hle, y3⟩

/-- **C79** with C61: row-frequency normalised data, with `M` and `K` as in `rf_end_to_end`. -/
theorem prepared_rf {κ : Type} {rows ants : Nat} {mt : Man} (h : NewTable rows ants mt)
    (nRow nRow' : Nat) (ops : List BlockOp) (m0 : Man) (hs : List.Forall₂ SameShape m0.columns mt.columns)
    (hlast : let m' := ops.foldl blockStep (newTable nRow rows ants mt)
      m'.nBlocks = 0 ∨ ∃ d, .write (m'.nBlocks - 1) (mt.columns.length - 1) d ∈ ops)
    {i : Nat} {c : Column} (hc : (newTable nRow rows ants mt).columns[i]? = some c)
    (hw : c.isData = true) (hnorm : c.norm = .rf) (hb : Supported c.bits)
    {sq : Fl → Fl} {e : Encoder} {g : Grid} (hd : Quantised e c.bits g)
    {antOf : Nat → Nat × Nat} {p : Col.Params (DataRow Cx) κ} {q : Nat} {v : Nat → DataRow Cx}
    {s : Col.State (DataRow Cx) κ p.threads} (hrun : Run p rows q v s)
    (himp : Implements (dataCodec sq e antOf rows c) c rows i ops s.writes)
    {D : Nat → Nat → Cx} (hD : DataRows (c.nPol * c.nCh) (q * rows) v antOf D)
    (hF : ∀ row j, row < q * rows → j < c.nPol * c.nCh → FloatVis (D row j))
    {M : Nat → Nat → ℚ}
    (hM : ∀ row po, row < q * rows → po < c.nPol → RF.RowPolMax c.nPol c.nCh D row po (M row po))
    (hM2 : ∀ row po, row < q * rows → po < c.nPol → M row po ≤ 2 ^ (126 : ℤ))
    {K : Nat → Nat → ℚ} (hK1 : ∀ b j, b < q → j < c.nPol * c.nCh → K b j ≤ 1)
    (hK : ∀ row j m, row < q * rows → j < c.nPol * c.nCh → Counted (D row j) m →
      m ≤ K (row / rows) j * M row (j % c.nPol))
    (hK0 : ∀ b j, b < q → j < c.nPol * c.nCh → K b j = 1 ∨
      ∃ row m, row / rows = b ∧ Counted (D row j) m ∧ m ≠ 0) :
    ∃ r man, openFile nRow' m0 (ops.foldl blockStep (newTable nRow rows ants mt)).file = .ok r ∧
      prepare r = (man, true) ∧
      ∀ (calls : List (Call Cx)) (buf : Block Cx), GoodCalls c rows (q * rows) (c.nPol * c.nCh) calls →
        ∃ outs, getAll (dataCodec sq e antOf rows c) i calls ⟨man, Col.noBlock, buf⟩ = .ok outs ∧
          List.Forall₂ (fun x out => out.len = c.nPol * c.nCh ∧ ∀ j, j < c.nPol * c.nCh →
            ((D x.row j).re.isFinite = false → (out.get j).re = .nan) ∧
            ((D x.row j).im.isFinite = false → (out.get j).im = .nan) ∧
            ∀ m, Counted (D x.row j) m → ∀ a,
              ((D x.row j).re = .fin a → ∃ y, (out.get j).re = .fin y ∧
                |y - a| ≤ M x.row (j % c.nPol) * K (x.row / rows) j * (g.ratio + 2 ^ (-21 : ℤ)) +
                  (3 * M x.row (j % c.nPol) + 3 * g.top + 1) * 2 ^ (-149 : ℤ) ∧
                (M x.row (j % c.nPol) = 0 → y = 0)) ∧
              ((D x.row j).im = .fin a → ∃ y, (out.get j).im = .fin y ∧
                |y - a| ≤ M x.row (j % c.nPol) * K (x.row / rows) j * (g.ratio + 2 ^ (-21 : ℤ)) +
                  (3 * M x.row (j % c.nPol) + 3 * g.top + 1) * 2 ^ (-149 : ℤ) ∧
                (M x.row (j % c.nPol) = 0 → y = 0))) calls outs := by
  obtain ⟨bd, l, L, δ, u2, u3, -, u4, u5⟩ := hd
  have hr0 := h.rowCount.1
  obtain ⟨r, man, g1, g2, g3⟩ := rf_end_to_end h nRow nRow' ops m0 hs hlast hc hw hnorm hb u2.table u2.count u2.float u2.low
    u2.sym u2.gap hrun himp hD hF hM
    (fun row po hr hp => div_small (hM row po hr hp).1 u4 (hM2 row po hr hp)) hK1 hK hK0
  refine ⟨r, man, g1, g2, fun calls buf hcalls => ?_⟩
  obtain ⟨outs, k1, k2⟩ := g3 calls buf hcalls
  refine ⟨outs, k1, ?_⟩
  rw [List.forall₂_iff_get] at k2 ⊢
  refine ⟨k2.1, fun k hk hk' => ?_⟩
  obtain ⟨l1, k3⟩ := k2.2 k hk hk'
  obtain ⟨hrow, _⟩ := hcalls _ (List.get_mem calls ⟨k, hk⟩)
  refine ⟨l1, fun j hj => ⟨(k3 j hj).1, (k3 j hj).2.1, fun m hm a => ?_⟩⟩
  have hpol : 0 < c.nPol := Nat.pos_of_ne_zero (by rintro h0; simp [h0] at hj)
  have hM0 := (hM _ _ hrow (Nat.mod_lt j hpol)).1
  have hm0 : 0 ≤ m := by
    obtain ⟨x, _, ⟨y, _, rfl⟩ | ⟨_, rfl⟩⟩ := hm
    · exact le_trans (abs_nonneg _) (le_max_left _ _)
    · exact abs_nonneg _
  have hle := rf_bound hM0 (le_trans hm0 (by rw [mul_comm]; exact hK _ j m hrow hj hm)) u3 u4 u5
  obtain ⟨z1, z2⟩ := (k3 j hj).2.2 m hm a
  refine ⟨fun ha => ?_, fun ha => ?_⟩
  · obtain ⟨y, y1, y2, y3⟩ := z1 ha
    exact ⟨y, y1, le_trans y2 hle, y3⟩
  · obtain ⟨y, y1, y2, y3⟩ := z2 ha
    exact ⟨y, y1, le_trans y2 hle, y3⟩

end Dysco.End
