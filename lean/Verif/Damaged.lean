import Verif.WorldSettings

/-!
# C121: settings in the header that are not valid

`readHeader` (dyscostman.cc:213-259) takes the numbers of bits, the distribution and the normalisation from the file
without checking them. Here the pointers that `Prepare` fills are modelled, so that what happens with other values is
visible. Simplifications: memory is never exhausted by a table that fits in the address space.
-/

namespace Dysco.Damaged
open StMan Layout BytePacker Stochastic Prepare Tools

/-- `enum class Normalization`, dysconormalization.h:5, by number. -/
def normAt : Nat → Option Norm
  | 0 => some .af
  | 1 => some .rf
  | 2 => some .row
  | _ => none

/-- What `Prepare` allocates for a column. -/
inductive Objects where
  /-- `_decoder` and `_gausEncoder`; `none` is a null pointer, dyscodatacolumn.h:81-82 -/
  | data (decoder : Option Norm) (quantiser : Option Encoder)
  /-- `_quantCount` of the `WeightBlockEncoder` -/
  | weight (quantCount : Nat)

/-- `1 << bits` with an `int`, converted to `size_t`. From 32 on the shift is undefined (`none`); with 31 the result
is the smallest `int`. dyscodatacolumn.cc:33-47. -/
def shift (bits : Nat) : Option Nat :=
  if bits < 31 then some (2 ^ bits) else if bits = 31 then some (2 ^ 64 - 2 ^ 31) else none

/-- `DyscoDataColumn::Prepare`, dyscodatacolumn.cc:8-50, of a new column. Both `switch` statements have no default. A
table with `2^64 - 2^31` values cannot be allocated; this is an exception. -/
def prepareData (libs : Libs) (fuel : Nat) (e0 d0 : Nat → Fl) (m : Man) : Res Objects :=
  match distributionAt m.distribution with
  | none => .ok (.data (normAt m.normalization) none)
  | some d =>
    match shift m.dataBitCount with
    | none => .ub
    | some _ =>
      if m.dataBitCount = 31 then .error else
      match encoder (libs.at_ m) fuel d m.dataBitCount e0 d0 with
      | none => .ub
      | some e => .ok (.data (normAt m.normalization) (some e))

/-- `DyscoWeightColumn::Prepare`, dyscoweightcolumn.cc:5-13. -/
def prepareWeight (m : Man) : Res Objects :=
  match shift m.weightBitCount with
  | none => .ub
  | some q => .ok (.weight q)

/-- The loop of `prepare`, dyscostman.cc:359-369; stops at the first exception. -/
def prepareColumns (libs : Libs) (fuel : Nat) (e0 d0 : Nat → Fl) (m : Man) : List Column → Res (List Objects)
  | [] => .ok []
  | c :: cs =>
    match if c.isData then prepareData libs fuel e0 d0 m else prepareWeight m with
    | .ok o =>
      match prepareColumns libs fuel e0 d0 m cs with
      | .ok os => .ok (o :: os)
      | r => r
    | .ub => .ub
    | .hang => .hang
    | .error => .error

/-- `metaDataFloatCount` and `symbolCount` of a data column call a member of `*_decoder`,
dyscodatacolumn.cc:96-105. -/
def Objects.counts : Objects → Bool
  | .data none _ => false
  | _ => true

/-- `prepare`, dyscostman.cc:351-376, after a table was opened. -/
def prepareObjects (libs : Libs) (fuel : Nat) (e0 d0 : Nat → Fl) (m : Man) : Res (List Objects) :=
  if m.dataBitCount = 0 ∨ m.weightBitCount = 0 then .error else
  match prepareColumns libs fuel e0 d0 m m.columns with
  | .ok os => if m.rowsPerBlock ≠ 0 ∧ os.any (fun o => !o.counts) then .ub else .ok os
  | r => r

/-- Which of the objects `loadBlock` uses, threadeddyscocolumn.cc:80-104, for a block that is in the file: the counts,
`unpack` (which refuses other numbers of bits, C03), and `*_gausEncoder` for every row (dyscodatacolumn.cc:58-62). -/
def load (m : Man) : Objects → Res Unit
  | .data none _ => .ub
  | .data (some _) q =>
    if unpackProg m.dataBitCount = none then .error
    else if m.rowsPerBlock ≠ 0 ∧ q.isNone then .ub else .ok ()
  | .weight _ => if unpackProg m.weightBitCount = none then .error else .ok ()

/-- Opening the table (`prepare`, dyscostman.cc:351-376) and then reading a block by column `i` (threadeddyscocolumn.cc:79-104).
-/
def readTable (libs : Libs) (fuel : Nat) (e0 d0 : Nat → Fl) (m : Man) (i : Nat) : Res Unit :=
  match prepareObjects libs fuel e0 d0 m with
  | .ok os =>
    match os[i]? with
    | none => .error
    | some o => load m o
  | .ub => .ub
  | .hang => .hang
  | .error => .error

/-! ## Lemmas -/

section columns
variable {libs : Libs} {fuel : Nat} {e0 d0 : Nat → Fl} {m : Man} {od ow : Objects}

theorem columns_ok (hd : prepareData libs fuel e0 d0 m = .ok od) (hw : prepareWeight m = .ok ow) (cs : List Column) :
    prepareColumns libs fuel e0 d0 m cs = .ok (cs.map fun c => if c.isData then od else ow) := by
  induction cs with
  | nil => rfl
  | cons c cs ih =>
    simp only [prepareColumns, ih, hd, hw, List.map_cons]
    cases c.isData <;> rfl

theorem columns_data_ub (hd : prepareData libs fuel e0 d0 m = .ub) (hw : prepareWeight m = .ok ow) (cs : List Column)
    (h : ∃ c ∈ cs, c.isData = true) : prepareColumns libs fuel e0 d0 m cs = .ub := by
  induction cs with
  | nil => simp at h
  | cons c cs ih =>
    by_cases hc : c.isData = true
    · simp [prepareColumns, hc, hd]
    · have : ∃ c ∈ cs, c.isData = true := by
        obtain ⟨x, hx, hx'⟩ := h
        rcases List.mem_cons.mp hx with rfl | hx
        · exact absurd hx' hc
        · exact ⟨x, hx, hx'⟩
      simp [prepareColumns, hc, hw, ih this]

theorem columns_weight_ub (hd : prepareData libs fuel e0 d0 m = .ok od) (hw : prepareWeight m = .ub) (cs : List Column)
    (h : ∃ c ∈ cs, c.isData = false) : prepareColumns libs fuel e0 d0 m cs = .ub := by
  induction cs with
  | nil => simp at h
  | cons c cs ih =>
    by_cases hc : c.isData = true
    · have : ∃ c ∈ cs, c.isData = false := by
        obtain ⟨x, hx, hx'⟩ := h
        rcases List.mem_cons.mp hx with rfl | hx
        · rw [hc] at hx'; cases hx'
        · exact ⟨x, hx, hx'⟩
      simp [prepareColumns, hc, hd, ih this]
    · simp [prepareColumns, hc, hw]

end columns

theorem unpackProg_none (b : Nat) : unpackProg b = none ↔ ¬ Supported b := by
  constructor
  · intro h hs
    unfold Supported at hs
    rcases hs with rfl | rfl | rfl | rfl | rfl | rfl | rfl | rfl <;> simp [unpackProg] at h
  · intro h
    unfold unpackProg
    split <;> first | rfl | exact absurd (by unfold Supported; omega) h

theorem distributionAt_none (d : Nat) : distributionAt d = none ↔ 3 < d := by
  match d with
  | 0 => simp [distributionAt]
  | 1 => simp [distributionAt]
  | 2 => simp [distributionAt]
  | 3 => simp [distributionAt]
  | d + 4 => simp [distributionAt]

theorem normAt_none (n : Nat) : normAt n = none ↔ 2 < n := by
  match n with
  | 0 => simp [normAt]
  | 1 => simp [normAt]
  | 2 => simp [normAt]
  | n + 3 => simp [normAt]

theorem normAt_some {n : Nat} (h : n ≤ 2) : normAt n = some (normOf n) := by
  match n, h with
  | 0, _ => rfl
  | 1, _ => rfl
  | 2, _ => rfl

theorem encoder_some (lib : Lib) (fuel : Nat) (d : Distribution) {bits : Nat} (hb : 1 ≤ bits) (e0 d0 : Nat → Fl) :
    ∃ e, encoder lib fuel d bits e0 d0 = some e := by
  obtain ⟨e, h, -⟩ := construct_spec (2 ^ bits)
    (le_trans (by norm_num) (Nat.pow_le_pow_right (by norm_num : 0 < 2) hb)) (value lib fuel d) e0 d0
  exact ⟨e, h⟩

theorem weight_some {m : Man} (h : m.weightBitCount ≤ 31) : ∃ q, prepareWeight m = .ok (.weight q) := by
  unfold prepareWeight shift
  by_cases h1 : m.weightBitCount < 31
  · simp [h1]
  · simp [show m.weightBitCount = 31 by omega]

theorem weight_ub {m : Man} (h : 31 < m.weightBitCount) : prepareWeight m = .ub := by
  unfold prepareWeight shift
  simp [show ¬ m.weightBitCount < 31 by omega, show m.weightBitCount ≠ 31 by omega]

theorem data_some {m : Man} (h1 : 1 ≤ m.dataBitCount) (h2 : m.distribution ≤ 3 → m.dataBitCount < 31) (libs : Libs)
    (fuel : Nat) (e0 d0 : Nat → Fl) :
    prepareData libs fuel e0 d0 m = .ok (.data (normAt m.normalization) (quantiser libs fuel m e0 d0)) ∧
      ((quantiser libs fuel m e0 d0).isNone ↔ 3 < m.distribution) := by
  unfold prepareData quantiser
  rw [← distributionAt_none]
  cases hd : distributionAt m.distribution with
  | none => simp
  | some d =>
    have h3 : m.distribution ≤ 3 := by
      by_contra hc
      rw [(distributionAt_none _).mpr (by omega)] at hd
      cases hd
    obtain ⟨e, he⟩ := encoder_some (libs.at_ m) fuel d h1 e0 d0
    have := h2 h3
    simp [shift, this, he, show m.dataBitCount ≠ 31 by omega]

theorem data_ub {m : Man} (h2 : m.distribution ≤ 3) (h3 : 31 < m.dataBitCount) (libs : Libs)
    (fuel : Nat) (e0 d0 : Nat → Fl) : prepareData libs fuel e0 d0 m = .ub := by
  unfold prepareData
  cases hd : distributionAt m.distribution with
  | none => rw [distributionAt_none] at hd; omega
  | some d => simp [shift, show ¬ m.dataBitCount < 31 by omega, show m.dataBitCount ≠ 31 by omega]

/-! ## What happens -/

/-- **C121** A data column of a table with blocks, for every value of its settings (the bits of the weights can be
shifted; 31 bits of data are an allocation that fails): reading raises an exception exactly if there are no bits, or
if the normalisation is known and the number of bits is not supported, and the shift is defined if it is done; it is
undefined exactly if the normalisation is unknown, or the shift is undefined, or the bits are supported but the
distribution is unknown; it works exactly for supported bits, a known normalisation and a known distribution. -/
theorem data_outcome (libs : Libs) (fuel : Nat) (e0 d0 : Nat → Fl) (m : Man) (i : Nat) (c : Column)
    (hc : m.columns[i]? = some c) (hdata : c.isData = true) (hrows : m.rowsPerBlock ≠ 0)
    (hw1 : 1 ≤ m.weightBitCount) (hw2 : m.weightBitCount ≤ 31) (h31 : m.dataBitCount ≠ 31) :
    (readTable libs fuel e0 d0 m i = .error ↔ m.dataBitCount = 0 ∨ (m.normalization ≤ 2 ∧ ¬ Supported m.dataBitCount ∧
      (m.distribution ≤ 3 → m.dataBitCount < 32))) ∧
    (readTable libs fuel e0 d0 m i = .ub ↔ m.dataBitCount ≠ 0 ∧ (2 < m.normalization ∨
      (m.distribution ≤ 3 ∧ 32 ≤ m.dataBitCount) ∨ (Supported m.dataBitCount ∧ 3 < m.distribution))) ∧
    (readTable libs fuel e0 d0 m i = .ok () ↔ Supported m.dataBitCount ∧ m.normalization ≤ 2 ∧ m.distribution ≤ 3) := by
  have hmem : ∃ c ∈ m.columns, c.isData = true := ⟨c, List.mem_of_getElem? hc, hdata⟩
  obtain ⟨q, hq⟩ := weight_some hw2
  have hsup : Supported m.dataBitCount → m.dataBitCount ≠ 0 ∧ m.dataBitCount < 32 := fun h => by
    unfold Supported at h; omega
  by_cases h0 : m.dataBitCount = 0
  · have : readTable libs fuel e0 d0 m i = .error := by simp [readTable, prepareObjects, h0]
    rw [this]
    simp only [h0, Supported]
    simp
  by_cases hsh : m.distribution ≤ 3 ∧ 32 ≤ m.dataBitCount
  · have hp := columns_data_ub (data_ub hsh.1 (by omega) libs fuel e0 d0) hq m.columns hmem
    have : readTable libs fuel e0 d0 m i = .ub := by
      simp [readTable, prepareObjects, h0, show m.weightBitCount ≠ 0 by omega, hp]
    rw [this]
    refine ⟨⟨fun h => by (cases h), fun h => ?_⟩, ⟨fun _ => ⟨h0, Or.inr (Or.inl hsh)⟩, fun _ => rfl⟩,
      ⟨fun h => by (cases h), fun h => absurd (hsup h.1).2 (by omega)⟩⟩
    rcases h with h | h
    · exact absurd h h0
    · exact absurd (h.2.2 hsh.1) (by omega)
  · obtain ⟨hp, hqn⟩ := data_some (m := m) (by omega) (fun _ => by omega) libs fuel e0 d0
    have hcols := columns_ok hp hq m.columns
    by_cases hn : 2 < m.normalization
    · have hany : ((m.columns.map fun c => if c.isData then Objects.data (normAt m.normalization)
          (quantiser libs fuel m e0 d0) else .weight q).any fun o => !o.counts) = true := by
        rw [List.any_eq_true]
        refine ⟨_, List.mem_map.mpr ⟨c, List.mem_of_getElem? hc, rfl⟩, ?_⟩
        rw [hdata, (normAt_none _).mpr hn]
        rfl
      have : readTable libs fuel e0 d0 m i = .ub := by
        unfold readTable prepareObjects
        rw [if_neg (by omega), hcols]
        simp only [hrows, hany, and_self, if_true, ne_eq, not_false_eq_true]
      rw [this]
      refine ⟨⟨fun h => by (cases h), fun h => ?_⟩, ⟨fun _ => ⟨h0, Or.inl hn⟩, fun _ => rfl⟩,
        ⟨fun h => by (cases h), fun h => absurd h.2.1 (by omega)⟩⟩
      rcases h with h | h
      · exact absurd h h0
      · exact absurd h.1 (by omega)
    · have hany : ((m.columns.map fun c => if c.isData then Objects.data (normAt m.normalization)
          (quantiser libs fuel m e0 d0) else .weight q).any fun o => !o.counts) = false := by
        rw [List.any_eq_false]
        intro o ho
        obtain ⟨c', -, rfl⟩ := List.mem_map.mp ho
        rw [normAt_some (by omega)]
        cases c'.isData <;> simp [Objects.counts]
      have hread : readTable libs fuel e0 d0 m i = load m (.data (some (normOf m.normalization))
          (quantiser libs fuel m e0 d0)) := by
        unfold readTable prepareObjects
        rw [if_neg (by omega), hcols]
        simp only [hany, Bool.false_eq_true, and_false, if_false]
        rw [List.getElem?_map, hc]
        simp only [Option.map_some, hdata, if_true]
        rw [normAt_some (by omega)]
      rw [hread]
      by_cases hs : Supported m.dataBitCount
      · have hu : unpackProg m.dataBitCount ≠ none := fun h => (unpackProg_none _).mp h hs
        by_cases hd : 3 < m.distribution
        · have : load m (.data (some (normOf m.normalization)) (quantiser libs fuel m e0 d0)) = .ub := by
            simp [load, hu, hrows, hqn.mpr hd]
          rw [this]
          refine ⟨⟨fun h => by (cases h), fun h => ?_⟩, ⟨fun _ => ⟨h0, Or.inr (Or.inr ⟨hs, hd⟩)⟩, fun _ => rfl⟩,
            ⟨fun h => by (cases h), fun h => absurd h.2.2 (by omega)⟩⟩
          rcases h with h | h
          · exact absurd h h0
          · exact absurd hs h.2.1
        · have hq' : ¬ (quantiser libs fuel m e0 d0).isNone = true := fun h => hd (hqn.mp h)
          have : load m (.data (some (normOf m.normalization)) (quantiser libs fuel m e0 d0)) = .ok () := by
            simp [load, hu, hq']
          rw [this]
          refine ⟨⟨fun h => by (cases h), fun h => ?_⟩, ⟨fun h => by (cases h), fun h => ?_⟩,
            ⟨fun _ => ⟨hs, by omega, by omega⟩, fun _ => rfl⟩⟩
          · rcases h with h | h
            · exact absurd h h0
            · exact absurd hs h.2.1
          · rcases h.2 with h | h | h
            · exact absurd h hn
            · exact absurd h hsh
            · exact absurd h.2 hd
      · have : load m (.data (some (normOf m.normalization)) (quantiser libs fuel m e0 d0)) = .error := by
          simp [load, (unpackProg_none _).mpr hs]
        rw [this]
        refine ⟨⟨fun _ => Or.inr ⟨by omega, hs, fun h => ?_⟩, fun _ => rfl⟩, ⟨fun h => by (cases h), fun h => ?_⟩,
          ⟨fun h => by (cases h), fun h => absurd h.1 hs⟩⟩
        · by_contra hc
          exact hsh ⟨h, by omega⟩
        · rcases h.2 with h | h | h
          · exact absurd h hn
          · exact absurd h hsh
          · exact absurd h.1 hs

/-- **C121** A weight column of a table whose data settings are valid (the distribution does not matter for it): undefined from 32 bits on, an exception for
other numbers of bits that are not supported. -/
theorem weight_outcome (libs : Libs) (fuel : Nat) (e0 d0 : Nat → Fl) (m : Man) (i : Nat) (c : Column)
    (hc : m.columns[i]? = some c) (hdata : c.isData = false) (hb : Supported m.dataBitCount) (hn : m.normalization ≤ 2) :
    (readTable libs fuel e0 d0 m i = .error ↔ ¬ Supported m.weightBitCount ∧ m.weightBitCount < 32) ∧
    (readTable libs fuel e0 d0 m i = .ub ↔ 32 ≤ m.weightBitCount) ∧
    (readTable libs fuel e0 d0 m i = .ok () ↔ Supported m.weightBitCount) := by
  have hb' := supported_bounds hb
  have hsup : Supported m.weightBitCount → m.weightBitCount ≠ 0 ∧ m.weightBitCount < 32 := fun h => by
    unfold Supported at h; omega
  obtain ⟨hp, -⟩ := data_some (m := m) (by omega) (fun _ => by omega) libs fuel e0 d0
  by_cases h0 : m.weightBitCount = 0
  · have : readTable libs fuel e0 d0 m i = .error := by simp [readTable, prepareObjects, h0]
    rw [this]
    simp only [h0, Supported]
    simp
  by_cases h32 : 32 ≤ m.weightBitCount
  · have hp := columns_weight_ub hp (weight_ub (by omega)) m.columns ⟨c, List.mem_of_getElem? hc, hdata⟩
    have : readTable libs fuel e0 d0 m i = .ub := by
      simp [readTable, prepareObjects, h0, show m.dataBitCount ≠ 0 by omega, hp]
    rw [this]
    refine ⟨⟨fun h => by (cases h), fun h => by omega⟩, ⟨fun _ => h32, fun _ => rfl⟩,
      ⟨fun h => by (cases h), fun h => absurd (hsup h).2 (by omega)⟩⟩
  · obtain ⟨q, hq⟩ := weight_some (m := m) (by omega)
    have hcols := columns_ok hp hq m.columns
    have hany : ((m.columns.map fun c => if c.isData then Objects.data (normAt m.normalization)
        (quantiser libs fuel m e0 d0) else .weight q).any fun o => !o.counts) = false := by
      rw [List.any_eq_false]
      intro o ho
      obtain ⟨c', -, rfl⟩ := List.mem_map.mp ho
      rw [normAt_some (by omega)]
      cases c'.isData <;> simp [Objects.counts]
    have hread : readTable libs fuel e0 d0 m i = load m (.weight q) := by
      unfold readTable prepareObjects
      rw [if_neg (by omega), hcols]
      simp only [hany, Bool.false_eq_true, and_false, if_false]
      rw [List.getElem?_map, hc]
      simp only [Option.map_some, hdata, Bool.false_eq_true, if_false]
    rw [hread]
    by_cases hs : Supported m.weightBitCount
    · have hu : unpackProg m.weightBitCount ≠ none := fun h => (unpackProg_none _).mp h hs
      have : load m (.weight q) = .ok () := by simp [load, hu]
      rw [this]
      exact ⟨⟨fun h => by (cases h), fun h => absurd hs h.1⟩, ⟨fun h => by (cases h), fun h => absurd h h32⟩,
        ⟨fun _ => hs, fun _ => rfl⟩⟩
    · have : load m (.weight q) = .error := by simp [load, (unpackProg_none _).mpr hs]
      rw [this]
      exact ⟨⟨fun _ => ⟨hs, by omega⟩, fun _ => rfl⟩, ⟨fun h => by (cases h), fun h => absurd h h32⟩,
        ⟨fun h => by (cases h), fun h => absurd h hs⟩⟩

/-- **C121** With valid settings the objects are those of the other claims: the normalisation `normOf` and the
quantiser of the settings. -/
theorem valid_objects (libs : Libs) (fuel : Nat) (e0 d0 : Nat → Fl) (m : Man) (hb : Supported m.dataBitCount)
    (hw : Supported m.weightBitCount) (hn : m.normalization ≤ 2) (hd : m.distribution ≤ 3) :
    ∃ e, quantiser libs fuel m e0 d0 = some e ∧ prepareObjects libs fuel e0 d0 m = .ok (m.columns.map fun c =>
      if c.isData then .data (some (normOf m.normalization)) (some e) else .weight (2 ^ m.weightBitCount)) := by
  have hb' := supported_bounds hb
  have hw' := supported_bounds hw
  obtain ⟨hp, hq⟩ := data_some (m := m) (by omega) (fun _ => by omega) libs fuel e0 d0
  have hwt : prepareWeight m = .ok (.weight (2 ^ m.weightBitCount)) := by
    simp [prepareWeight, shift, show m.weightBitCount < 31 by omega]
  obtain ⟨e, he⟩ : ∃ e, quantiser libs fuel m e0 d0 = some e := by
    cases hqe : quantiser libs fuel m e0 d0 with
    | some e => exact ⟨e, rfl⟩
    | none => rw [hqe] at hq; exact absurd (hq.mp rfl) (by omega)
  refine ⟨e, he, ?_⟩
  rw [he, normAt_some hn] at hp
  unfold prepareObjects
  rw [if_neg (by omega), columns_ok hp hwt]
  simp only
  rw [if_neg]
  rintro ⟨-, h⟩
  rw [List.any_eq_true] at h
  obtain ⟨o, ho, h⟩ := h
  obtain ⟨c', -, rfl⟩ := List.mem_map.mp ho
  revert h
  cases c'.isData <;> simp [Objects.counts]

/-! ## The bytes of the file -/

/-- Byte `k` of the header after the version: bits of the data, bits of the weights, distribution, normalisation. -/
def setting (f : Mem 8) (k : Nat) : Nat := fieldAt f 1 (32 + fieldAt f 4 12 + k)

/-- **C121** Every file that is opened gives its settings to the manager unchecked. -/
theorem opened_settings {nRow : Nat} {m r : Man} {f : Mem 8} (h : openFile nRow m f = .ok r) :
    r.dataBitCount = setting f 0 ∧ r.weightBitCount = setting f 1 ∧ r.distribution = setting f 2 ∧
      r.normalization = setting f 3 ∧ r.rowsPerBlock = fieldAt f 4 (16 + fieldAt f 4 12) := by
  unfold openFile at h
  rw [unserialize_spec] at h
  by_cases h1 : 16 ≤ f.len ∧ 52 + fieldAt f 4 12 ≤ f.len
  · rw [if_pos h1] at h
    simp only at h
    split at h
    · cases h
    split at h
    · cases h
    split at h
    · cases h
    split at h
    · cases h
    · injection h with h
      subst h
      have e : ∀ k, 32 + fieldAt f 4 12 + k = 32 + k + fieldAt f 4 12 := fun k => by omega
      refine ⟨rfl, ?_, ?_, ?_, rfl⟩ <;> simp only [setting, opened, e]
  · rw [if_neg h1] at h
    cases h

/-- **C121** The same in terms of the bytes of the file: after opening, a data column can be read exactly if the
bytes are supported numbers, and otherwise it is an exception exactly as listed, in all other cases undefined. -/
theorem file_outcome (libs : Libs) (fuel : Nat) (e0 d0 : Nat → Fl) {nRow : Nat} {m r : Man} {f : Mem 8}
    (h : openFile nRow m f = .ok r) (i : Nat) (c : Column) (hc : r.columns[i]? = some c) (hdata : c.isData = true)
    (hrows : fieldAt f 4 (16 + fieldAt f 4 12) ≠ 0) (hw1 : 1 ≤ setting f 1) (hw2 : setting f 1 ≤ 31)
    (h31 : setting f 0 ≠ 31) :
    (readTable libs fuel e0 d0 r i = .error ↔ setting f 0 = 0 ∨ (setting f 3 ≤ 2 ∧ ¬ Supported (setting f 0) ∧
      (setting f 2 ≤ 3 → setting f 0 < 32))) ∧
    (readTable libs fuel e0 d0 r i = .ub ↔ setting f 0 ≠ 0 ∧ (2 < setting f 3 ∨
      (setting f 2 ≤ 3 ∧ 32 ≤ setting f 0) ∨ (Supported (setting f 0) ∧ 3 < setting f 2))) ∧
    (readTable libs fuel e0 d0 r i = .ok () ↔ Supported (setting f 0) ∧ setting f 3 ≤ 2 ∧ setting f 2 ≤ 3) := by
  obtain ⟨e0', e1, e2, e3, e4⟩ := opened_settings h
  rw [← e0', ← e2, ← e3]
  rw [← e1] at hw1 hw2
  exact data_outcome libs fuel e0 d0 r i c hc hdata (e4 ▸ hrows) hw1 hw2 (e0' ▸ h31)

/-! ## Witnesses -/

/-- The header of a table with a data and a weight column and 3 rows per block, with given settings. -/
def damaged (bits distribution normalization : Nat) : Man :=
  { sampleMan with dataBitCount := bits, distribution := distribution, normalization := normalization }

/-- **C121** (negative) A file with normalisation 7, and a file with distribution 9, are opened without an error;
reading is undefined. -/
theorem settings_not_checked (libs : Libs) (fuel : Nat) (e0 d0 : Nat → Fl) :
    (∃ r, openFile 0 sampleMan (writeHeader (damaged 8 3 7)).1.file = .ok r ∧ readTable libs fuel e0 d0 r 0 = .ub) ∧
    (∃ r, openFile 0 sampleMan (writeHeader (damaged 8 9 1)).1.file = .ok r ∧ readTable libs fuel e0 d0 r 0 = .ub) := by
  have key : ∀ d n, d < 256 → n < 256 → (2 < n ∨ 3 < d) →
      ∃ r, openFile 0 sampleMan (writeHeader (damaged 8 d n)).1.file = .ok r ∧ readTable libs fuel e0 d0 r 0 = .ub := by
    intro d n hd hn hbad
    have hr : (damaged 8 d n).InRange := by
      constructor <;> simp [damaged, sampleMan]
    obtain ⟨r, e, -, b1, b2, b3, b4, -, -, -, b8, -, -, -, -, -, hcols⟩ := reopen_restores (damaged 8 d n) hr rfl 0
      sampleMan rfl (Or.inl (by simp [damaged, sampleMan]))
    simp only [damaged, sampleMan, List.zipWith] at b1 b2 b3 b4 b8 hcols
    rw [Nat.mod_eq_of_lt hd] at b3
    rw [Nat.mod_eq_of_lt hn] at b4
    have hs : Supported r.dataBitCount := by rw [b1]; unfold Supported; omega
    refine ⟨r, e, (data_outcome libs fuel e0 d0 r 0 _ (by rw [hcols]; rfl) rfl (by omega) (by omega) (by omega)
      (by omega)).2.1.mpr ⟨by omega, ?_⟩⟩
    rcases hbad with h | h
    · exact Or.inl (by omega)
    · exact Or.inr (Or.inr ⟨hs, by omega⟩)
  exact ⟨key 3 7 (by omega) (by omega) (by omega), key 9 1 (by omega) (by omega) (by omega)⟩

/-- The hypotheses are met, with a data and a weight column. -/
example : ∃ (m : Man) (c w : Column), m.columns[0]? = some c ∧ c.isData = true ∧ m.columns[1]? = some w ∧
    w.isData = false ∧ m.rowsPerBlock ≠ 0 ∧ 1 ≤ m.weightBitCount ∧ m.weightBitCount ≤ 31 ∧ m.dataBitCount ≠ 31 ∧
    Supported m.dataBitCount ∧ Supported m.weightBitCount ∧ m.normalization ≤ 2 ∧ m.distribution ≤ 3 :=
  ⟨sampleMan, _, _, rfl, rfl, rfl, rfl, by decide, by decide, by decide, by decide, by unfold Supported; decide,
    by unfold Supported; decide, by decide, by decide⟩

end Dysco.Damaged
