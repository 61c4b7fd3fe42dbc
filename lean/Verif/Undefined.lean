import Verif.WorldEnd

/-!
# C115: blocks that cannot be encoded

Encoding a block reads every value of every row, and antenna-frequency normalisation uses the antennas as indices. With a
row that was never put (it has no values), or an antenna that is not below the antenna count, memory outside the buffers
is read: the model gives `none`. The antenna count is that of the first block (threadeddyscocolumn.cc:198-202).
-/

namespace Dysco
open TimeBlock

/-! ## Loops -/

theorem forRange_pres {σ : Type} {n : Nat} {body : Nat → σ → Option σ} {P : σ → Prop}
    (hb : ∀ i s s', i < n → P s → body i s = some s' → P s') {s s' : σ} (h0 : P s) (h : forRange n body s = some s') : P s' := by
  induction n generalizing s' with
  | zero =>
    obtain rfl := Option.some.inj h
    exact h0
  | succ n ih =>
    obtain ⟨s1, h1, h2⟩ := Option.bind_eq_some_iff.1 h
    exact hb n s1 s' (Nat.lt_succ_self n) (ih (fun i s s' hi => hb i s s' (Nat.lt_succ_of_lt hi)) h1) h2

theorem forRange_undefined {σ : Type} {n : Nat} {body : Nat → σ → Option σ} {P : σ → Prop}
    (hb : ∀ i s s', i < n → P s → body i s = some s' → P s') {i : Nat} (hi : i < n) (hn : ∀ s, P s → body i s = none) {s : σ}
    (h0 : P s) : forRange n body s = none := by
  induction n with
  | zero => omega
  | succ n ih =>
    unfold forRange
    by_cases h : i = n
    · subst h
      cases e : forRange i body s with
      | none => rfl
      | some s1 =>
        rw [Option.bind_some]
        exact hn s1 (forRange_pres (fun j s s' hj => hb j s s' (Nat.lt_succ_of_lt hj)) h0 e)
    · rw [ih (fun j s s' hj => hb j s s' (Nat.lt_succ_of_lt hj)) (by omega)]
      rfl

theorem wr_len {α : Type} {b b' : Buf α} {i : Nat} {x : α} (h : b.wr i x = some b') : b'.len = b.len := by
  unfold Buf.wr at h
  split at h
  · obtain rfl := Option.some.inj h; rfl
  · cases h

/-! ## The shape of a block does not change -/

/-- The same antennas and number of values in every row. -/
def SameForm (d d' : Block Cx) : Prop :=
  d'.len = d.len ∧ ∀ r, (d'.get r).antenna1 = (d.get r).antenna1 ∧ (d'.get r).antenna2 = (d.get r).antenna2 ∧
    (d'.get r).vis.len = (d.get r).vis.len

theorem SameForm.refl (d : Block Cx) : SameForm d d := ⟨rfl, fun _ => ⟨rfl, rfl, rfl⟩⟩

theorem SameForm.trans {a b c : Block Cx} (h : SameForm a b) (h' : SameForm b c) : SameForm a c :=
  ⟨h'.1.trans h.1, fun r => ⟨(h'.2 r).1.trans (h.2 r).1, (h'.2 r).2.1.trans (h.2 r).2.1, (h'.2 r).2.2.trans (h.2 r).2.2⟩⟩

theorem updVis_alike {d d' : Block Cx} {r i : Nat} {f : Cx → Cx} (h : updVis d r i f = some d') : SameForm d d' := by
  obtain ⟨row, h1, h⟩ := Option.bind_eq_some_iff.1 h
  obtain ⟨v, h2, h⟩ := Option.bind_eq_some_iff.1 h
  obtain ⟨vis, h3, h⟩ := Option.bind_eq_some_iff.1 h
  have e1 : row = d.get r := by
    unfold Buf.rd at h1
    split at h1
    · exact (Option.some.inj h1).symm
    · cases h1
  unfold Buf.wr at h
  split at h
  · obtain rfl := Option.some.inj h
    refine ⟨rfl, fun k => ?_⟩
    by_cases hk : k = r
    · subst hk
      simp [← e1, wr_len h3]
    · simp [hk]
  · cases h

theorem loop_alike {n : Nat} {d d' : Block Cx} {r : Nat} {ix : Nat → Nat} {f : Nat → Cx → Cx}
    (h : forRange n (fun i x => updVis x r (ix i) (f i)) d = some d') : SameForm d d' :=
  forRange_pres (P := SameForm d) (fun _ _ _ _ hp e => hp.trans (updVis_alike e)) (SameForm.refl d) h

/-- A row with too few values. -/
def Short (n : Nat) (d : Block Cx) : Prop := ∃ r, r < d.len ∧ (d.get r).vis.len < n

theorem Short.alike {n : Nat} {d d' : Block Cx} (h : Short n d) (ha : SameForm d d') : Short n d' := by
  obtain ⟨r, h1, h2⟩ := h
  exact ⟨r, by rw [ha.1]; exact h1, by rw [(ha.2 r).2.2]; exact h2⟩

theorem quantise_short {RF : ℚ → Fl} {enc : Fl → Nat → Option Nat} {dith : Nat → Nat} {n : Nat} {d : Block Cx}
    (h : Short n d) (sym : Buf Nat) : quantise RF enc dith n d sym = none := by
  obtain ⟨r, h1, h2⟩ := h
  unfold quantise
  rw [forRange_undefined (P := fun _ => True) (fun _ _ _ _ _ _ => trivial) h1 _ trivial]
  · rfl
  · intro s _
    rw [show d.rd r = some (d.get r) by simp [Buf.rd, h1], Option.bind_some,
      forRange_undefined (P := fun _ => True) (fun _ _ _ _ _ _ => trivial) h2 _ trivial]
    · rfl
    · intro s' _
      simp [Buf.rd]

/-! ## Row and row-frequency normalisation -/

theorem Row.normalize_alike {RF RD : ℚ → Fl} {n : Nat} {mx : Fl} {d : Block Cx} {metaB : Buf Fl} {st : Block Cx × Buf Fl}
    (h : Row.normalize RF RD n mx d metaB = some st) : SameForm d st.1 := by
  refine forRange_pres (P := fun s : Block Cx × Buf Fl => SameForm d s.1) ?_ (SameForm.refl d) h
  intro r s s' _ hp e
  obtain ⟨row, _, e⟩ := Option.bind_eq_some_iff.1 e
  obtain ⟨m, _, e⟩ := Option.bind_eq_some_iff.1 e
  obtain ⟨d1, e1, e⟩ := Option.bind_eq_some_iff.1 e
  obtain ⟨mb, _, rfl⟩ := Option.map_eq_some_iff.1 e
  exact hp.trans (loop_alike e1)

theorem Row.encode_short {RF RD : ℚ → Fl} {enc : Fl → Nat → Option Nat} {mx : Fl} {nPol nCh : Nat} {dith : Nat → Nat}
    {d : Block Cx} (h : Short (nPol * nCh) d) (metaB : Buf Fl) (sym : Buf Nat) :
    Row.encode RF RD enc mx nPol nCh dith d metaB sym = none := by
  unfold Row.encode
  cases e : Row.normalize RF RD (nPol * nCh) mx d metaB with
  | none => rfl
  | some st =>
    rw [Option.bind_some, quantise_short (h.alike (Row.normalize_alike e))]
    rfl

theorem RF.rows_alike {F RD : ℚ → Fl} {nPol nCh : Nat} {mx : Fl} {st st' : Block Cx × Buf Fl}
    (h : RF.maximizeRows F RD nPol nCh mx st = some st') : SameForm st.1 st'.1 := by
  refine forRange_pres (P := fun s : Block Cx × Buf Fl => SameForm st.1 s.1) ?_ (SameForm.refl _) h
  intro r s s' _ hp e
  refine hp.trans (forRange_pres (P := fun s' : Block Cx × Buf Fl => SameForm s.1 s'.1) ?_ (SameForm.refl _) e)
  intro p s s' _ hp e
  obtain ⟨m, _, e⟩ := Option.bind_eq_some_iff.1 e
  obtain ⟨d1, e1, e⟩ := Option.bind_eq_some_iff.1 e
  obtain ⟨mb, _, rfl⟩ := Option.map_eq_some_iff.1 e
  exact hp.trans (loop_alike (ix := fun ch => ch * nPol + p) (f := fun _ => _) e1)

theorem RF.channels_alike {F RD : ℚ → Fl} {nPol nCh : Nat} {mx : Fl} {st st' : Block Cx × Buf Fl}
    (h : RF.maximizeChannels F RD nPol nCh mx st = some st') : SameForm st.1 st'.1 := by
  refine forRange_pres (P := fun s : Block Cx × Buf Fl => SameForm st.1 s.1) ?_ (SameForm.refl _) h
  intro i s s' _ hp e
  obtain ⟨m, _, e⟩ := Option.bind_eq_some_iff.1 e
  obtain ⟨mb, _, e⟩ := Option.bind_eq_some_iff.1 e
  obtain ⟨d1, e1, rfl⟩ := Option.map_eq_some_iff.1 e
  exact hp.trans (forRange_pres (P := SameForm s.1) (fun _ _ _ _ hp e => hp.trans (updVis_alike e)) (SameForm.refl _) e1)

theorem RF.encode_short {F RD : ℚ → Fl} {enc : Fl → Nat → Option Nat} {mx : Fl} {nPol nCh : Nat} {dith : Nat → Nat}
    {d : Block Cx} (h : Short (nPol * nCh) d) (metaB : Buf Fl) (sym : Buf Nat) :
    RF.encode F RD enc mx nPol nCh dith d metaB sym = none := by
  unfold RF.encode
  cases e : RF.maximizeRows F RD nPol nCh mx (d, metaB) with
  | none => rfl
  | some st =>
    rw [Option.bind_some]
    cases e2 : RF.maximizeChannels F RD nPol nCh mx st with
    | none => rfl
    | some st' =>
      rw [Option.bind_some, quantise_short (h.alike ((RF.rows_alike e).trans (RF.channels_alike e2)))]
      rfl

/-! ## Antenna-frequency normalisation -/

namespace AF

theorem channelMeas_short {RD : ℚ → Fl} {n : Nat} {d : Block Cx} (h : Short n d) : channelMeas RD n d = none := by
  obtain ⟨r, h1, h2⟩ := h
  unfold channelMeas
  refine forRange_undefined (P := fun _ => True) (fun _ _ _ _ _ _ => trivial) h1 (fun s _ => ?_) trivial
  refine forRange_undefined (P := fun _ => True) (fun _ _ _ _ _ _ => trivial) h2 (fun s _ => ?_) trivial
  simp [rdVis, Buf.rd, h1]

theorem encode_short {RF RD : ℚ → Fl} {sq : Fl → Fl} {enc : Fl → Nat → Option Nat} {mx : Fl} {nPol nCh nAnt : Nat}
    {dith : Nat → Nat} {fuel : Nat} {d : Block Cx} (h : Short (nPol * nCh) d) (metaB : Buf Fl) (sym : Buf Nat) :
    encode RF RD sq enc mx nPol nCh nAnt dith fuel d metaB sym = none := by
  unfold encode normalize
  rw [channelMeas_short h]
  rfl

/-- A row with an antenna that is not below the antenna count. -/
def Outside (nAnt : Nat) (d : Block Cx) : Prop :=
  ∃ r, r < d.len ∧ (nAnt ≤ (d.get r).antenna1 ∨ nAnt ≤ (d.get r).antenna2)

theorem Outside.alike {n : Nat} {d d' : Block Cx} (h : Outside n d) (ha : SameForm d d') : Outside n d' := by
  obtain ⟨r, h1, h2⟩ := h
  exact ⟨r, by rw [ha.1]; exact h1, by rw [(ha.2 r).1, (ha.2 r).2.1]; exact h2⟩

theorem normalizeChannels_alike {RF RD : ℚ → Fl} {sq : Fl → Fl} {n : Nat} {meas : Buf (Nat × Fl)} {st st' : Block Cx × Buf Fl}
    (h : normalizeChannels RF RD sq n meas st = some st') : SameForm st.1 st'.1 := by
  refine forRange_pres (P := fun s : Block Cx × Buf Fl => SameForm st.1 s.1) ?_ (SameForm.refl _) h
  intro r s s' _ hp e
  refine hp.trans (forRange_pres (P := fun s' : Block Cx × Buf Fl => SameForm s.1 s'.1) ?_ (SameForm.refl _) e)
  intro p s s' _ hp e
  obtain ⟨m, _, e⟩ := Option.bind_eq_some_iff.1 e
  obtain ⟨d1, e1, e⟩ := Option.bind_eq_some_iff.1 e
  obtain ⟨mb, _, rfl⟩ := Option.map_eq_some_iff.1 e
  exact hp.trans (updVis_alike e1)

theorem rmsIterate_len {RD : ℚ → Fl} {nAnt : Nat} {mat : Nat → Nat → Option Fl} {s s' : RmsState}
    (h : rmsIterate RD nAnt mat s = some s') : s'.ant.len = s.ant.len := by
  unfold rmsIterate at h
  obtain ⟨next, _, h⟩ := Option.bind_eq_some_iff.1 h
  obtain ⟨t, h1, h⟩ := Option.bind_eq_some_iff.1 h
  have k1 : t.1.len = s.ant.len := by
    refine forRange_pres (P := fun t : Buf Fl × Fl => t.1.len = s.ant.len) ?_ rfl h1
    intro i t t' _ hp e
    obtain ⟨x, _, e⟩ := Option.bind_eq_some_iff.1 e
    obtain ⟨o, _, e⟩ := Option.bind_eq_some_iff.1 e
    obtain ⟨a, e1, rfl⟩ := Option.map_eq_some_iff.1 e
    exact (wr_len e1).trans hp
  refine forRange_pres (P := fun t : RmsState => t.ant.len = s.ant.len) ?_ k1 h
  intro i t t' _ hp e
  obtain ⟨x, _, e⟩ := Option.bind_eq_some_iff.1 e
  obtain ⟨o, _, e⟩ := Option.bind_eq_some_iff.1 e
  obtain ⟨a, e1, rfl⟩ := Option.map_eq_some_iff.1 e
  exact (wr_len e1).trans hp

theorem antennaRms_len {RD : ℚ → Fl} {sq : Fl → Fl} {nPol nCh nAnt p : Nat} {d : Block Cx} {ant : Buf Fl}
    (h : antennaRms RD sq nPol nCh nAnt p d = some ant) : ant.len = nAnt := by
  obtain ⟨meas, _, h⟩ := Option.bind_eq_some_iff.1 h
  obtain ⟨s, e, rfl⟩ := Option.map_eq_some_iff.1 h
  refine forRange_pres (P := fun s : RmsState => s.ant.len = nAnt) ?_ rfl e
  intro i s s' _ hp e
  split at e
  · exact (rmsIterate_len e).trans hp
  · obtain rfl := Option.some.inj e
    exact hp

theorem normalizeAntennas_outside {RF RD : ℚ → Fl} {sq : Fl → Fl} {nPol nCh nAnt p : Nat} {st : Block Cx × Buf Fl}
    (h : Outside nAnt st.1) : normalizeAntennas RF RD sq nPol nCh nAnt p st = none := by
  unfold normalizeAntennas
  cases e : antennaRms RD sq nPol nCh nAnt p st.1 with
  | none => rfl
  | some ant =>
    have hl := antennaRms_len e
    obtain ⟨r, h1, h2⟩ := h
    rw [Option.bind_some, forRange_undefined (P := fun _ => True) (fun _ _ _ _ _ _ => trivial) h1 _ trivial]
    · rfl
    · intro s _
      rw [show st.1.rd r = some (st.1.get r) by simp [Buf.rd, h1], Option.bind_some]
      rcases h2 with h2 | h2
      · rw [show ant.rd (st.1.get r).antenna1 = none by simp [Buf.rd, hl, h2]]
        rfl
      · cases ant.rd (st.1.get r).antenna1 with
        | none => rfl
        | some x =>
          rw [Option.bind_some, show ant.rd (st.1.get r).antenna2 = none by simp [Buf.rd, hl, h2]]
          rfl

/-- C115: an antenna that is not below the antenna count. -/
theorem encode_outside {RF RD : ℚ → Fl} {sq : Fl → Fl} {enc : Fl → Nat → Option Nat} {mx : Fl} {nPol nCh nAnt : Nat}
    {dith : Nat → Nat} {fuel : Nat} {d : Block Cx} (hp : 0 < nPol) (h : Outside nAnt d) (metaB : Buf Fl) (sym : Buf Nat) :
    encode RF RD sq enc mx nPol nCh nAnt dith fuel d metaB sym = none := by
  unfold encode normalize
  cases e1 : channelMeas RD (nPol * nCh) d with
  | none => rfl
  | some meas =>
    rw [Option.bind_some]
    cases e2 : normalizeChannels RF RD sq (nPol * nCh) meas (d, metaB) with
    | none => rfl
    | some st =>
      have hs : Outside nAnt st.1 := Outside.alike h (normalizeChannels_alike e2)
      rw [Option.bind_some, show forRange nPol (fun p st => normalizeAntennas RF RD sq nPol nCh nAnt p st) st = none from ?_]
      · rfl
      · refine forRange_undefined (P := fun s : Block Cx × Buf Fl => Outside nAnt s.1) ?_ hp
          (fun s hs => normalizeAntennas_outside hs) hs
        intro p s s' _ hs e
        rw [normalizeAntennas_outside hs] at e
        cases e

end AF

/-! ## Weights -/

namespace Weight

/-- `minWeight` is defined only when all polarisations of the channel are there. -/
theorem minWeight_len {nPol : Nat} {vis : Buf Fl} {ch : Nat} {w : Fl} (h : minWeight nPol vis ch = some w) :
    0 < nPol ∧ ch * nPol + nPol ≤ vis.len := by
  unfold minWeight at h
  split at h
  · cases h
  · rename_i h0
    obtain ⟨w0, h1, h2⟩ := Option.bind_eq_some_iff.1 h
    refine ⟨Nat.pos_of_ne_zero h0, ?_⟩
    by_contra hc
    by_cases h1' : nPol = 1
    · subst h1'
      have : vis.rd (ch * 1) = none := by simp [Buf.rd]; omega
      rw [this] at h1
      cases h1
    · rw [forRange_undefined (P := fun _ => True) (fun _ _ _ _ _ _ => trivial) (i := nPol - 2) (by omega) _ trivial] at h2
      · cases h2
      · intro s _
        have : vis.rd (ch * nPol + (nPol - 2 + 1)) = none := by simp [Buf.rd]; omega
        rw [this]
        rfl

/-- C115: a row with too few weights. -/
theorem encode_short {RF RD : ℚ → Fl} {nPol nCh q : Nat} {d : Block Fl}
    (h : ∃ r, r < d.len ∧ (d.get r).vis.len < nPol * nCh) (metaB : Buf Fl) (sym : Buf Nat) :
    encode RF RD nPol nCh q d metaB sym = none := by
  obtain ⟨r, h1, h2⟩ := h
  have hc : 0 < nCh := by
    by_contra hc
    obtain rfl : nCh = 0 := by omega
    simp at h2
  unfold encode
  rw [show maxLoop nPol nCh d = none from ?_]
  · rfl
  · unfold maxLoop
    refine forRange_undefined (P := fun _ => True) (fun _ _ _ _ _ _ => trivial) h1 (fun s _ => ?_) trivial
    rw [show d.rd r = some (d.get r) by simp [Buf.rd, h1], Option.bind_some]
    refine forRange_undefined (P := fun _ => True) (fun _ _ _ _ _ _ => trivial) (i := nCh - 1) (by omega) (fun s _ => ?_) trivial
    cases e : minWeight nPol (d.get r).vis (nCh - 1) with
    | none => rfl
    | some w =>
      exfalso
      obtain ⟨-, hl⟩ := minWeight_len e
      obtain ⟨k, rfl⟩ : ∃ k, nCh = k + 1 := ⟨nCh - 1, by omega⟩
      rw [Nat.mul_succ, Nat.mul_comm] at h2
      simp only [Nat.add_sub_cancel] at hl
      omega

end Weight

namespace End
open BytePacker Layout StMan

/-- All rows of the buffer were put, with all values. -/
def Complete {α : Type} (n : Nat) (rows : Col.Rows (DataRow α)) : Prop :=
  ∀ j, j < rows.len → ∃ r, rows.get j = some r ∧ n ≤ r.vis.len

/-- The antennas of all rows that were put are below the count. -/
def Within {α : Type} (nAnt : Nat) (rows : Col.Rows (DataRow α)) : Prop :=
  ∀ j r, j < rows.len → rows.get j = some r → r.antenna1 < nAnt ∧ r.antenna2 < nAnt

theorem short_of_not_complete {α : Type} {zero : α} {n : Nat} (hn : 0 < n) {rows : Col.Rows (DataRow α)}
    (h : ¬ Complete n rows) : ∃ r, r < (toBlock zero rows).len ∧ ((toBlock zero rows).get r).vis.len < n := by
  unfold Complete at h
  push Not at h
  obtain ⟨j, h1, h2⟩ := h
  refine ⟨j, h1, ?_⟩
  show ((rows.get j).getD _).vis.len < n
  cases e : rows.get j with
  | none => exact hn
  | some r => exact h2 r e

theorem encodes_not_none {α : Type} {K : Codec α} {c : Column} {rpb : Nat} {rows : Col.Rows (DataRow α)} {d : Mem 8}
    (h : Encodes K c rpb rows d) : ¬ ∀ dith fuel metaB sym, K.enc dith fuel (toBlock K.zero rows) metaB sym = none := by
  intro hn
  obtain ⟨dith, fuel, packed, unpacked, -, -, h⟩ := h
  unfold writeBlock at h
  rw [hn] at h
  split at h <;> cases h

/-- C115: encoding a block of visibilities is defined only if all rows of the block were put and, with antenna-frequency
normalisation, their antennas are below the antenna count. -/
theorem data_encode_needs {sq : Fl → Fl} {e : Stochastic.Encoder} {ants : Nat → Nat × Nat} {rpb rpb' : Nat} {c : Column}
    (hc : 0 < c.nPol) (hn : 0 < c.nCh) {rows : Col.Rows (DataRow Cx)} {d : Mem 8}
    (h : Encodes (dataCodec sq e ants rpb c) c rpb' rows d) :
    Complete (c.nPol * c.nCh) rows ∧ (c.norm = .af → Within c.antennaCount rows) := by
  have h := encodes_not_none h
  constructor
  · by_contra hs
    have hs := short_of_not_complete (zero := (⟨.fin 0, .fin 0⟩ : Cx)) (Nat.mul_pos hc hn) hs
    apply h
    intro dith fuel metaB sym
    show encData c.norm sq e c.nPol c.nCh c.antennaCount dith fuel _ metaB sym = none
    unfold encData
    cases c.norm with
    | af => exact AF.encode_short hs _ _
    | rf => exact congrArg (Option.map some) (RF.encode_short hs _ _)
    | row => exact congrArg (Option.map some) (Row.encode_short hs _ _)
  · intro hf j r hj hr
    by_contra hs
    apply h
    intro dith fuel metaB sym
    show encData c.norm sq e c.nPol c.nCh c.antennaCount dith fuel _ metaB sym = none
    unfold encData
    rw [hf]
    refine AF.encode_outside hc ⟨j, hj, ?_⟩ _ _
    simp only [dataCodec, toBlock, hr, Option.getD_some]
    omega

/-- C115: encoding a block of weights is defined only if all rows of the block were put. -/
theorem weight_encode_needs {rpb : Nat} {c : Column} (hc : 0 < c.nPol) (hn : 0 < c.nCh) {rows : Col.Rows (DataRow Fl)}
    {d : Mem 8} (h : Encodes (weightCodec c) c rpb rows d) : Complete (c.nPol * c.nCh) rows := by
  by_contra hs
  apply encodes_not_none h
  intro dith fuel metaB sym
  show (Weight.encode _ _ _ _ _ _ metaB sym).map some = none
  rw [Weight.encode_short (short_of_not_complete (Nat.mul_pos hc hn) hs)]
  rfl

end End

namespace World
open BytePacker Layout StMan Col End Multi

/-- C115: a thread can encode a block only if every row of it was put; with antenna-frequency normalisation the antennas
must be below the antenna count of the column. -/
theorem thread_needs {κ : Type} {c : Nat} {kind : Fin c → Kind} {P : (i : Fin c) → Params (DataRow (Elem (kind i))) κ}
    {sq : Fl → Fl} {e : Stochastic.Encoder} {antOf : Nat → Nat × Nat} {w w' : WState P} {i : Fin c} {t : Fin (P i).threads}
    (h : WStep (fun i => codec sq e antOf (kind i)) w (.thread i t) w') {b : Nat} {r : Col.Rows (DataRow (Elem (kind i)))}
    (ht : (w.cols.cols i).threads t = .encode b r) {col : Column} (hc : w.man.columns[i.val]? = some col)
    (hp : 0 < col.nPol) (hn : 0 < col.nCh) :
    Complete (col.nPol * col.nCh) r ∧ (kind i = .data → col.norm = .af → Within col.antennaCount r) := by
  have h2 := h.2
  simp only [Effect, ht] at h2
  obtain ⟨col', d, hc', henc, -⟩ := h2
  obtain rfl : col = col' := Option.some.inj (hc.symm.trans hc')
  clear ht
  revert r
  generalize kind i = K
  intro r henc
  cases K with
  | data => exact ⟨(data_encode_needs hp hn henc).1, fun _ => (data_encode_needs hp hn henc).2⟩
  | weight => exact ⟨weight_encode_needs hp hn henc, fun hk => by cases hk⟩

/-- C115: an antenna that first occurs after the first block. The client writes the whole table and closes it, as in
`table_end_to_end`, with antenna-frequency normalisation; the antenna count is that of the first block. Whatever the threads
do, no defined execution closes the table. -/
theorem late_antenna {κ : Type} {c : Nat} {kind : Fin c → Kind}
    {P : (i : Fin c) → Params (DataRow (Elem (kind i))) κ} {rows R ants : Nat}
    {v : (i : Fin c) → Nat → DataRow (Elem (kind i))} {antOf : Nat → Nat × Nat}
    {prog : List (MOp fun i => DataRow (Elem (kind i)))} (hT : WholeTable P rows R v antOf prog)
    (hants : AntennaCount rows antOf ants) {mt : Man} (h : NewTable rows ants mt) (hc : mt.columns.length = c)
    {sq : Fl → Fl} {e : Stochastic.Encoder} {nRow : Nat} {i : Fin c} (hk : kind i = .data) {c0 : Column}
    (hi : mt.columns[i.val]? = some c0) (hp : 0 < c0.nPol) (hn : 0 < c0.nCh) (haf : normOf mt.normalization = .af)
    {row : Nat} (hrow : row < R) (hout : ants ≤ (antOf row).1 ∨ ants ≤ (antOf row).2)
    {k : κ} {w : WState P} (hw : WReach (fun i => codec sq e antOf (kind i)) (winitial P k nRow mt prog) w) :
    w.cols.pc ≠ .closed := by
  intro hcl
  have hpos := hT.pos
  obtain ⟨ops, -, -, hall⟩ := world_closed hT hants h hc (Fin.pos i) hw hcl
  obtain ⟨s, hrun, himp⟩ := hall i
  obtain ⟨col, hcol⟩ : ∃ col, (newTable nRow rows ants mt).columns[i.val]? = some col := by
    obtain ⟨-, -, f3, -⟩ := newTable_fields (nRow := nRow) h
    refine ⟨_, List.getElem?_eq_getElem ?_⟩
    rw [f3, (layout_spec h.rowCount.2 h.antCount (configured mt mt.columns) 0 (by simpa using h.total)).2.2.1]
    simp [configured, hc]
  obtain ⟨c1, y0, -, y2, y3, -, y5, y6, -⟩ := newTable_column h hcol
  obtain rfl : c0 = c1 := Option.some.inj (hi.symm.trans y0)
  have hdm := Nat.div_add_mod row rows
  rw [Nat.mul_comm] at hdm
  obtain ⟨rws, ho, hfill⟩ := hrun.written hpos (b := row / rows) (by omega)
  have hm : (row / rows, rws) ∈ s.writes := by
    have : rws ∈ ofBlock s.writes (row / rows) := by rw [ho]; exact List.mem_singleton.mpr rfl
    unfold ofBlock at this
    simpa using this
  obtain ⟨x, -, -, henc⟩ := forall₂_left_mem (himp col hcol).flip hm
  have hin : row % rows < rowsIn rows R (row / rows) := by
    have := Nat.mod_lt row hpos
    unfold rowsIn
    omega
  have hget := hfill.get (row % rows) hin
  rw [Nat.mul_comm, Nat.div_add_mod] at hget
  have ha := hT.ants i row hrow
  have key : ∀ (K : Kind) (rws : Col.Rows (DataRow (Elem K))) (x : DataRow (Elem K)), K = .data → row % rows < rws.len →
      rws.get (row % rows) = some x → (x.antenna1, x.antenna2) = antOf row →
      (∃ d, Encodes (codec sq e antOf K rows col) col rows rws d) → False := by
    rintro K rws x rfl hl hget ha ⟨d, henc⟩
    have := (data_encode_needs (c := col) (by rw [y2]; exact hp) (by rw [y3]; exact hn) henc).2 (y5.trans haf)
      (row % rows) x hl hget
    rw [y6] at this
    rw [← ha] at hout
    simp only at hout
    omega
  exact key (kind i) rws _ hk (lt_of_lt_of_le hin hfill.count) hget ha ⟨_, henc⟩

/-! ## A table with antennas 0 and 1 in the first block and antenna 2 in the second -/

/-- The rows. Not in the code. -/
def lateRow (r : Nat) : DataRow Cx := ⟨0, if r < 2 then 1 else 2, ⟨1, fun _ => ⟨.fin 1, .fin 0⟩⟩⟩

/-- One thread, two rows per block. Not in the code. -/
def lateCols : (i : Fin 1) → Params (DataRow (Elem .data)) Nat :=
  fun _ => ⟨1, 1, fun r => r / 2, fun a b => a != b, fun _ _ => id⟩

/-- Four rows are written. Not in the code. -/
def lateProg : List (MOp fun _ : Fin 1 => DataRow (Elem .data)) :=
  [.put 0 0 (lateRow 0), .put 0 1 (lateRow 1), .put 0 2 (lateRow 2), .put 0 3 (lateRow 3), .close]

/-- One column of one polarisation and channel with antenna-frequency normalisation. -/
def lateMan : Man := { tableMan with normalization := 0, columns := [⟨true, 1, 1, 0, .af, 0, 0, 0⟩] }

theorem late_whole : WholeTable lateCols 2 4 (fun _ => lateRow) (fun r => (0, if r < 2 then 1 else 2)) lateProg where
  threads _ := Nat.one_pos
  maxCache _ := Nat.le_refl 1
  pos := by decide
  more := by decide
  small := by decide
  same i r h1 h2 := by
    have : r / 2 = 0 := by omega
    simp [lateCols, this]
  diff _ := rfl
  ants _ _ _ := rfl
  whole i := by
    obtain rfl : i = 0 := Subsingleton.elim _ _
    simp [lateProg, ops, Whole]
    exact ⟨rfl, rfl, rfl, rfl⟩

theorem lateMan_new : NewTable 2 2 lateMan := by
  refine ⟨⟨by decide, by decide, by decide, by decide, by decide, by decide⟩, rfl, by decide, by decide,
    by decide, by decide +kernel, ?_⟩
  intro c hc
  simp only [configured, lateMan, tableMan, List.map_cons, List.map_nil, List.mem_cons, List.not_mem_nil, or_false] at hc
  subst hc
  decide +kernel

/-- C115: that table cannot be closed. -/
theorem late_antenna_example (sq : Fl → Fl) (e : Stochastic.Encoder) {w : WState lateCols}
    (hw : WReach (fun _ => codec sq e (fun r => (0, if r < 2 then 1 else 2)) .data) (winitial lateCols 0 4 lateMan lateProg) w) :
    w.cols.pc ≠ .closed :=
  late_antenna (kind := fun _ => .data) late_whole
    ⟨fun r hr => by simp [hr], 0, by decide, .inr rfl⟩ lateMan_new rfl (i := 0) rfl rfl (by decide) (by decide) rfl (row := 2)
    (by decide) (.inr (by decide)) hw

/-- The blocks of the table of `WorldEnd` can be encoded. -/
example : ∃ (e : Stochastic.Encoder) (col : Column) (d : Mem 8), 0 < col.nPol ∧ 0 < col.nCh ∧
    Encodes (dataCodec AF.coarseSqrt e (fun _ => (0, 1)) 3 col) col 3 ⟨3, fun j => some (sampleTable 0 j)⟩ d := by
  obtain ⟨p0, Q, h⟩ := Quantile.gslNormal_exists 2.5
  obtain ⟨e, _, h1, _⟩ := Prepare.encoder_determined ⟨fun _ => 0, p0, Q, fun _ => .nan⟩ 0 .truncatedGaussian 8 (by norm_num)
    (fun _ => .nan) (fun _ => .nan) (fun _ => .nan) (fun _ => .nan)
  have hb : Supported 8 := by unfold Supported; omega
  have hd : Quantised e tableMan.dataBitCount (grid .truncatedGaussian 8) :=
    concrete_quantised (Or.inr ⟨rfl, by decide, h⟩) (by decide) h1
  obtain ⟨col, hcol⟩ : ∃ col, (newTable 6 3 2 tableMan).columns[0]? = some col := ⟨_, rfl⟩
  obtain ⟨c0, k0, k1, k2, k3, -⟩ := newTable_column tableMan_new hcol
  obtain rfl : (⟨true, 4, 16, 0, .af, 0, 0, 0⟩ : Column) = c0 := by simpa [tableMan] using k0
  obtain ⟨d, hd⟩ := column_encodes tableMan_new hcol AF.coarseSqrt_mono hd hb hb .data k1
    (fun r hr => sample_whole.ants 0 r hr) (sample_fine 0 col hcol) (b := 0) (by decide)
    (r := ⟨3, fun j => some (sampleTable 0 j)⟩) rfl (fun j _ => by simp)
  exact ⟨e, col, d, by rw [k2]; decide, by rw [k3]; decide, hd⟩

end World

end Dysco
