import Verif.WorldTable

/-!
# The settings in the file

A reader makes its quantiser from the settings that it finds in the file. It is the quantiser that the values were
written with.
-/

namespace Dysco.Prepare
open Stochastic Tools StMan BytePacker

/-- The library functions, with the parameters that the settings of the table give to them. `p0` is
`gsl_cdf_gaussian_P(-truncation, 1)` and `T` is `gsl_cdf_tdist_Pinv(., nu)`; both parameters are bits of a `double`. -/
structure Libs where
  P : ℚ → ℚ
  p0 : Nat → ℚ
  Q : ℚ → ℚ
  T : Nat → ℚ → Fl

/-- The functions for the settings of a table. -/
def Libs.at_ (libs : Libs) (m : Man) : Lib := ⟨libs.P, libs.p0 m.distributionTruncation, libs.Q, libs.T m.studentTNu⟩

/-- The enumerators of dyscodistribution.h:5-10 by number. -/
def distributionAt : Nat → Option Distribution
  | 0 => some .gaussian
  | 1 => some .uniform
  | 2 => some .studentsT
  | 3 => some .truncatedGaussian
  | _ => none

/-- `DyscoDataColumn::Prepare` with the settings of the table, dyscodatacolumn.cc:31-49 as called from
dyscostman.cc:350-369. A number that is no enumerator makes no quantiser. -/
def quantiser (libs : Libs) (fuel : Nat) (m : Man) (e0 d0 : Nat → Fl) : Option Encoder :=
  (distributionAt m.distribution).bind fun d => encoder (libs.at_ m) fuel d m.dataBitCount e0 d0

/-- Two managers have the same settings. -/
structure SameSettings (a b : Man) : Prop where
  name : a.name = b.name
  data : a.dataBitCount = b.dataBitCount
  weight : a.weightBitCount = b.weightBitCount
  distribution : a.distribution = b.distribution
  normalization : a.normalization = b.normalization
  nu : a.studentTNu = b.studentTNu
  truncation : a.distributionTruncation = b.distributionTruncation

theorem SameSettings.trans {a b c : Man} (h : SameSettings a b) (h' : SameSettings b c) : SameSettings a c :=
  ⟨h.1.trans h'.1, h.2.trans h'.2, h.3.trans h'.3, h.4.trans h'.4, h.5.trans h'.5, h.6.trans h'.6, h.7.trans h'.7⟩

theorem SameSettings.symm {a b : Man} (h : SameSettings a b) : SameSettings b a :=
  ⟨h.1.symm, h.2.symm, h.3.symm, h.4.symm, h.5.symm, h.6.symm, h.7.symm⟩

theorem supported_bounds {b : Nat} (h : Supported b) : 2 ≤ b ∧ b ≤ 16 := by
  unfold Supported at h
  omega

theorem quantiser_congr {a b : Man} (h : SameSettings a b) (libs : Libs) (fuel : Nat) (e0 d0 : Nat → Fl) :
    quantiser libs fuel a e0 d0 = quantiser libs fuel b e0 d0 := by
  unfold quantiser Libs.at_
  rw [h.data, h.distribution, h.nu, h.truncation]

/-- Two tables that are made in the same way decode alike, whatever was in the memory before. -/
theorem construct_decode {q : Nat} (hq : 2 ≤ q) {F : ℚ → Fl} {e0 d0 e0' d0' : Nat → Fl} {e e' : Encoder}
    (h : construct q F e0 d0 = some e) (h' : construct q F e0' d0' = some e') : e'.decode = e.decode := by
  obtain ⟨x, x1, -, x3, x4, -, -, x7⟩ := construct_spec q hq F e0 d0
  obtain ⟨y, y1, -, y3, y4, -, -, y7⟩ := construct_spec q hq F e0' d0'
  rw [h] at x1
  rw [h'] at y1
  cases x1
  cases y1
  funext s
  unfold Encoder.decode
  rw [x3, y3]
  by_cases hs : s < q
  · rw [if_pos hs, if_pos hs]
    by_cases hs' : s < q - 1
    · rw [x4 s hs', y4 s hs']
    · obtain rfl : s = q - 1 := by omega
      rw [x7, y7]
  · rw [if_neg hs, if_neg hs]

theorem quantiser_exists {m : Man} {d : Distribution} (hd : distributionAt m.distribution = some d) (hb : 1 ≤ m.dataBitCount)
    (libs : Libs) (fuel : Nat) (e0 d0 : Nat → Fl) : ∃ e, quantiser libs fuel m e0 d0 = some e := by
  obtain ⟨e, h, -⟩ := construct_spec (2 ^ m.dataBitCount)
    (le_trans (by norm_num) (Nat.pow_le_pow_right (by norm_num : 0 < 2) hb)) (value (libs.at_ m) fuel d) e0 d0
  refine ⟨e, ?_⟩
  unfold quantiser
  rw [hd]
  exact h

/-- The quantisers of two managers with the same settings decode alike. -/
theorem quantiser_decode {m m' : Man} (h : SameSettings m' m) (hb : 1 ≤ m.dataBitCount) {libs : Libs} {fuel : Nat}
    {e0 d0 e0' d0' : Nat → Fl} {e e' : Encoder} (he : quantiser libs fuel m e0 d0 = some e)
    (he' : quantiser libs fuel m' e0' d0' = some e') : e'.decode = e.decode := by
  rw [quantiser_congr h] at he'
  unfold quantiser at he he'
  cases hd : distributionAt m.distribution with
  | none => rw [hd] at he; cases he
  | some d =>
    rw [hd] at he he'
    exact construct_decode (le_trans (by norm_num) (Nat.pow_le_pow_right (by norm_num : 0 < 2) hb)) he he'

end Dysco.Prepare

namespace Dysco.World
open BytePacker StMan Layout End Col Multi Stochastic Prepare Tools

/-- Reading uses the decoder and the zero of a codec only. -/
theorem getAll_congr {β : Type} {K K' : Codec β} (hz : K'.zero = K.zero) (hd : K'.dec = K.dec) (i : Nat)
    (calls : List (Call β)) (s : Reader β) : getAll K' i calls s = getAll K i calls s := by
  have hl : ∀ b packed unpacked s, loadBlock K' i b packed unpacked s = loadBlock K i b packed unpacked s := by
    intro b packed unpacked s
    unfold loadBlock
    rw [hz, hd]
  have hg : ∀ row dest packed unpacked s, getValues K' i row dest packed unpacked s =
      getValues K i row dest packed unpacked s := by
    intro row dest packed unpacked s
    unfold getValues
    rw [hz]
    simp only [hl]
  induction calls generalizing s with
  | nil => rfl
  | cons x xs ih =>
    simp only [getAll, hg, ih]

theorem reads_congr {sq : Fl → Fl} {e e' : Encoder} (he : e'.decode = e.decode) {antOf : Nat → Nat × Nat} {k : Kind}
    {rows i R : Nat} {col : Column} {man : Man} {close : Nat → Buf (Elem k) → Prop}
    (h : ReadsBack (codec sq e antOf k rows col) i col rows R man close) :
    ReadsBack (codec sq e' antOf k rows col) i col rows R man close := by
  intro calls buf hg
  rw [getAll_congr (K := codec sq e antOf k rows col)]
  · exact h calls buf hg
  · cases k <;> rfl
  · cases k with
    | weight => rfl
    | data =>
      show (fun b => decData _ e' _ _ _ _) = fun b => decData _ e _ _ _ _
      unfold decData
      rw [he]

/-- The file of a table that was closed gives back the manager: only the number of rows is supplied from outside. In
particular the settings of the table are those of the manager that the table was made with. -/
theorem table_settings {κ : Type} {c : Nat} {α : Fin c → Type} {P : (i : Fin c) → Params (DataRow (α i)) κ}
    {rows R ants : Nat} {v : (i : Fin c) → Nat → DataRow (α i)} {antOf : Nat → Nat × Nat}
    {prog : List (MOp fun i => DataRow (α i))} (hT : WholeTable P rows R v antOf prog)
    (hants : AntennaCount rows antOf ants) {mt : Man} (h : NewTable rows ants mt) (hc : mt.columns.length = c)
    (hc0 : 0 < c) {K : Codecs α} {k : κ} {nRow : Nat} {w : WState P} (hw : WReach K (winitial P k nRow mt prog) w)
    (hcl : w.cols.pc = .closed) (nRow' : Nat) (m0 : Man) (hs : List.Forall₂ SameShape m0.columns mt.columns) :
    ∃ r, openFile nRow' m0 w.man.file = .ok r ∧ prepare r = ({ w.man with nRow := nRow' }, true) ∧
      SameSettings w.man mt ∧ w.man.columns = (newTable nRow rows ants mt).columns := by
  obtain ⟨ops, hm, hlast, -⟩ := world_closed hT hants h hc hc0 hw hcl
  rw [hm] at hlast ⊢
  have hne : mt.columns ≠ [] := by
    rintro h0
    rw [h0] at hc
    simp only [List.length_nil] at hc
    omega
  obtain ⟨r, e1, e2⟩ := reopen_prepare h nRow ops nRow' m0 hs hne hlast
  have hF : Fresh (newTable nRow rows ants mt) := newTable_fresh h
  obtain ⟨-, -, -, -, f5, f6, f7, f8, f9, f10, f11⟩ := newTable_fields (nRow := nRow) h
  obtain ⟨-, -, -, a4, a5, a6, a7, a8, a9, a10, -⟩ := headerBytes_run hF ops
  obtain ⟨-, hcol⟩ := run_holds hF.holds ops
  exact ⟨r, e1, e2, ⟨a4.trans f5, a5.trans f6, a6.trans f7, a7.trans f8, a8.trans f9, a9.trans f10, a10.trans f11⟩, hcol⟩

/-- A whole table, read by its settings: opening the file gives a manager with the settings that the table was made with,
the quantiser that is made from these settings can be made, and with it every row of every column is read back. The
columns have the layout that the manager found. -/
theorem table_by_settings {κ : Type} {c : Nat} {kind : Fin c → Kind}
    {P : (i : Fin c) → Params (DataRow (Elem (kind i))) κ} {rows R q ants : Nat}
    {v : (i : Fin c) → Nat → DataRow (Elem (kind i))} {antOf : Nat → Nat × Nat}
    {prog : List (MOp fun i => DataRow (Elem (kind i)))} (hT : WholeTable P rows R v antOf prog) (hq : 0 < q)
    (hqR : q * rows ≤ R)
    (hants : AntennaCount rows antOf ants) {mt : Man} (h : NewTable rows ants mt) (hc : mt.columns.length = c)
    (hc0 : 0 < c) (hk : ∀ (i : Fin c) c0, mt.columns[i.val]? = some c0 → c0.isData = (kind i).isData)
    (hdb : Supported mt.dataBitCount) (hwb : Supported mt.weightBitCount)
    {sq : Fl → Fl} (hsq : AF.SqrtMono sq) {libs : Libs} {fuel : Nat} {e0 d0 : Nat → Fl} {e : Encoder}
    (hen : quantiser libs fuel mt e0 d0 = some e) {gd : Grid} (hd : Quantised e mt.dataBitCount gd)
    {nRow : Nat} (hf : ∀ (i : Fin c) col, (newTable nRow rows ants mt).columns[i.val]? = some col →
      Fine col rows (q * rows) ants antOf (kind i) (v i))
    {k : κ} {w : WState P}
    (hw : WReach (fun i => codec sq e antOf (kind i)) (winitial P k nRow mt prog) w) (hcl : w.cols.pc = .closed)
    (nRow' : Nat) (m0 : Man) (hs : List.Forall₂ SameShape m0.columns mt.columns) :
    ∃ r man, openFile nRow' m0 w.man.file = .ok r ∧ prepare r = (man, true) ∧ SameSettings man mt ∧
      ∀ e0' d0', ∃ e', quantiser libs fuel man e0' d0' = some e' ∧
        ∀ i : Fin c, ∃ col, man.columns[i.val]? = some col ∧ (newTable nRow rows ants mt).columns[i.val]? = some col ∧
          ReadsBack (codec sq e' antOf (kind i) rows col) i col rows (q * rows) man
            (Close sq e gd col rows (q * rows) ants antOf (kind i) (v i)) := by
  obtain ⟨r, man, e1, e2, e3⟩ := table_end_to_end hT hq hqR hants h hc hc0 hk hdb hwb hsq hd hf hw hcl nRow' m0 hs
  obtain ⟨r', e1', e2', s1, s2⟩ := table_settings hT hants h hc hc0 hw hcl nRow' m0 hs
  rw [e1] at e1'
  cases e1'
  rw [e2] at e2'
  injection e2' with e2' _
  have hset : SameSettings man mt := by
    rw [e2']
    exact ⟨s1.1, s1.2, s1.3, s1.4, s1.5, s1.6, s1.7⟩
  have hb : 1 ≤ mt.dataBitCount := by have := supported_bounds hdb; omega
  refine ⟨r, man, e1, e2, hset, fun e0' d0' => ?_⟩
  obtain ⟨d, hdn⟩ : ∃ d, distributionAt mt.distribution = some d := by
    cases hx : distributionAt mt.distribution with
    | none => unfold quantiser at hen; rw [hx] at hen; cases hen
    | some d => exact ⟨d, rfl⟩
  obtain ⟨e', g1⟩ := quantiser_exists hdn hb libs fuel e0' d0'
  rw [← quantiser_congr hset] at g1
  refine ⟨e', g1, fun i => ?_⟩
  obtain ⟨col, c1, c2⟩ := e3 i
  refine ⟨col, ?_, c1, reads_congr (quantiser_decode hset hb hen g1) c2⟩
  rw [e2']
  show w.man.columns[i.val]? = some col
  rw [s2]
  exact c1

/-! The hypotheses can be met: a table with the truncated Gaussian distribution and eight bits, and one that was opened
with other column shapes but has the same settings. -/

example (libs : Libs) (e0 d0 : Nat → Fl) : ∃ e, quantiser libs 0 { tableMan with distribution := 3 } e0 d0 = some e :=
  quantiser_exists (d := .truncatedGaussian) rfl (by decide) libs 0 e0 d0

example (libs : Libs) (e0 d0 e0' d0' : Nat → Fl) {e e' : Encoder}
    (he : quantiser libs 0 tableMan e0 d0 = some e) (he' : quantiser libs 0 { tableMan with columns := [] } e0' d0' = some e') :
    e'.decode = e.decode :=
  quantiser_decode (m' := { tableMan with columns := [] }) ⟨rfl, rfl, rfl, rfl, rfl, rfl, rfl⟩ (by decide) he he'

example (F : ℚ → Fl) {e e' : Encoder} (h : construct 256 F (fun _ => .nan) (fun _ => .nan) = some e)
    (h' : construct 256 F (fun _ => .fin 0) (fun _ => .fin 1) = some e') : e'.decode = e.decode :=
  construct_decode (by decide) h h'

end Dysco.World
