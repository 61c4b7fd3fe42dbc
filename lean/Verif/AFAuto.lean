import Verif.AFRange
import Verif.AFNan
import Verif.AFModerate

/-!
# C110: antenna-frequency normalisation loses autocorrelations that have no cross-correlations beside them

The fit of antenna factors (aftimeblockencoder.cc:340-398) only uses cross-correlations. In a block that has none, every
iteration multiplies the factors by 0.2, and after 100 iterations they are far below the smallest float. The samples are
divided by their squares and overflow when they are converted to float.
-/

namespace Dysco.AF
open TimeBlock Stochastic

variable {nR nPol nCh nAnt : Nat} {A : Nat → Nat × Nat} {D : Nat → Nat → Cx} {data : Block Cx}

/-- A sample without signal: the real part is NaN or infinite, or the sample is zero. -/
def Blank (v : Cx) : Prop := v.re.isFinite = false ∨ v = ⟨.fin 0, .fin 0⟩

theorem Blank.scale {v : Cx} (h : Blank v) (q : ℚ) : Blank (v.scale Fl.r64 (.fin q)) := by
  rcases h with h | rfl
  · exact .inl (mul_nonfinite h)
  · right
    simp [Cx.scale, Fl.mul, Fl.r64_zero]

theorem Blank.scaleN {v : Cx} (h : Blank v) (q : ℚ) (k : Nat) : Blank (scaleN Fl.r64 (.fin q) k v) := by
  induction k with
  | zero => exact h
  | succ k ih => exact ih.scale q

theorem Blank.divRms {v : Cx} (h : Blank v) (s : Fl) : Blank (divRms Fl.r64 s v) := by
  rcases h with h | rfl
  · exact .inl ((Spoilt.divRms (R := Fl.r64) (v := v) (w := v) ⟨id, id⟩ s).1 h)
  · unfold AF.divRms
    split
    · exact .inr rfl
    · rename_i hs
      cases s with
      | fin q =>
        right
        have hq : q ≠ 0 := by simpa [Fl.eq] using hs
        simp [Cx.divBy, Fl.div, hq, Fl.r64_zero]
      | inf t => right; simp [Cx.divBy, Fl.div]
      | nan => left; simp [Cx.divBy, Fl.div, Fl.isFinite]

/-- No cross-correlation has any signal. -/
def NoCross (nR n : Nat) (A : Nat → Nat × Nat) (D : Nat → Nat → Cx) : Prop :=
  ∀ r i, r < nR → i < n → Cross A r → Blank (D r i)

/-! ## The antenna factors -/

/-- The antenna factors after a number of iterations. -/
def fade : Nat → Fl
  | 0 => .fin 1
  | k + 1 => mix Fl.r64 (.fin 0) (fade k)

/-- What is used of one iteration. -/
def fadeOk (x : Fl) : Bool :=
  Fl.lt (.fin 0) x && !(Fl.lt x (Fl.mul Fl.r64 x (Fl.r64 (1 / 100000)))) &&
    decide (Fl.div Fl.r64 (Fl.abs (Fl.sub Fl.r64 x (.fin 0))) x = .fin 1)

theorem fade_ok : ∀ k, k < 101 → fadeOk (fade k) = true := by decide +kernel

theorem fade_fin (k : Nat) (hk : k < 101) : ∃ y, fade k = .fin y := by
  have h := fade_ok k hk
  revert h
  generalize fade k = x
  intro h
  cases x with
  | fin q => exact ⟨q, rfl⟩
  | inf s => cases s <;> simp [fadeOk, Fl.lt, Fl.mul, Fl.div, Fl.sub, Fl.add, Fl.neg, Fl.abs] at h
  | nan => simp [fadeOk, Fl.lt] at h

/-- The factor applied to a row, and that it can be told from nothing in the file. -/
def fadedOk (f : Fl) : Bool :=
  match f with
  | .fin F => decide (((2 ^ 400 : Nat) : ℚ) ≤ F ∧ F ≤ ((2 ^ 500 : Nat) : ℚ))
  | _ => false

theorem faded_factor : ∃ F : ℚ, antFactor Fl.r64 (fade 100) (fade 100) = .fin F ∧ (2 : ℚ) ^ (400 : ℤ) ≤ F ∧ F ≤ 2 ^ (500 : ℤ) := by
  have h : fadedOk (antFactor Fl.r64 (fade 100) (fade 100)) = true := by decide +kernel
  revert h
  generalize antFactor Fl.r64 (fade 100) (fade 100) = f
  intro h
  cases f with
  | fin F =>
    simp only [fadedOk, decide_eq_true_eq] at h
    exact ⟨F, rfl, by exact_mod_cast h.1, by exact_mod_cast h.2⟩
  | inf s => simp [fadedOk] at h
  | nan => simp [fadedOk] at h

theorem faded_meta : Fl.cast Fl.r32 (fade 100) = .fin 0 := by decide +kernel

/-- The elements of the matrix of a block without signal. -/
def Void (mat : Nat → Nat → Option Fl) (nAnt : Nat) : Prop :=
  ∀ i j, i < nAnt → j < nAnt → mat i j = some .nan ∨ mat i j = some (.fin 0)

theorem nextSums_lone {mat : Nat → Nat → Option Fl} (hM : Void mat nAnt) {ant : Buf Fl}
    (hl : ant.len = nAnt) {x : ℚ} (hx : ∀ j, j < nAnt → ant.get j = .fin x) {i : Nat} (hi : i < nAnt) :
    ∃ w, nextSums Fl.r64 nAnt mat ant i = some (.fin 0, w) ∧ w ≠ .nan := by
  obtain ⟨⟨z, w⟩, e, h1, h2⟩ := forRange_inv nAnt (fun j (s : Fl × Fl) => (ant.rd j).bind fun w =>
    if i ≠ j ∧ Fl.eq w (.fin 0) = false then
      (mat i j).map fun x => if x.isFinite then (Fl.add Fl.r64 s.1 x, Fl.add Fl.r64 s.2 w) else s
    else some s) (.fin 0, .fin 0) (fun _ s => s.1 = .fin 0 ∧ s.2 ≠ .nan) ⟨rfl, by simp⟩ (by
      rintro j ⟨z, w⟩ hj ⟨rfl, hw⟩
      rw [Buf.rd_some (by omega), Option.bind_some, hx j hj]
      split
      · rcases hM i j hi hj with h | h
        · rw [h]
          exact ⟨_, rfl, rfl, hw⟩
        · rw [h]
          refine ⟨_, rfl, ?_, ?_⟩
          · simp [Fl.isFinite, Fl.add, Fl.r64_zero]
          · simp only [Fl.isFinite, if_true]
            cases w with
            | fin q => exact r64_ne_nan _
            | inf s => simp [Fl.add]
            | nan => exact absurd rfl hw
      · exact ⟨_, rfl, rfl, hw⟩)
  simp only at h1 h2
  subst h1
  exact ⟨w, e, h2⟩

theorem nextRms_lone {w : Fl} (hw : w ≠ .nan) : nextRms Fl.r64 (.fin 0, w) = .fin 0 := by
  unfold nextRms
  split
  · rfl
  · rename_i hz
    cases w with
    | fin q =>
      have hq : q ≠ 0 := by simpa [Fl.eq] using hz
      simp [Fl.div, hq, Fl.r64_zero]
    | inf s => simp [Fl.div]
    | nan => exact absurd rfl hw

theorem rmsIterate_lone {mat : Nat → Nat → Option Fl} (hM : Void mat nAnt) (h0 : 0 < nAnt)
    {k : Nat} (hk : k < 100) {st : RmsState} (hl : st.ant.len = nAnt) (ha : ∀ i, i < nAnt → st.ant.get i = fade k) :
    ∃ st', rmsIterate Fl.r64 nAnt mat st = some st' ∧ st'.ant.len = nAnt ∧ (∀ i, i < nAnt → st'.ant.get i = fade (k + 1)) ∧
      st'.precision = .fin 1 := by
  have hok := fade_ok (k + 1) (by omega)
  obtain ⟨y, hy⟩ := fade_fin k (by omega)
  have hx : fade (k + 1) = Fl.add Fl.r64 (Fl.mul Fl.r64 (.fin 0) (Fl.r64 (4 / 5))) (Fl.mul Fl.r64 (fade k) (Fl.r64 (1 / 5))) := rfl
  generalize fade (k + 1) = x at *
  unfold fadeOk at hok
  simp only [Bool.and_eq_true, Bool.not_eq_true', decide_eq_true_eq] at hok
  obtain ⟨⟨o1, o2⟩, o3⟩ := hok
  obtain ⟨next, e1, n1, n2⟩ := forRange_inv nAnt
    (fun i (next : Buf Fl) => (nextSums Fl.r64 nAnt mat st.ant i).bind fun s =>
      next.wr i (nextRms Fl.r64 s)) ⟨nAnt, fun _ => .fin 0⟩
    (fun _ b => b.len = nAnt ∧ ∀ i, b.get i = .fin 0) ⟨rfl, fun _ => rfl⟩ (by
      rintro i b hi ⟨h1, h2⟩
      obtain ⟨w, ew, hw⟩ := nextSums_lone hM hl (x := y) (fun j hj => by rw [ha j hj, hy]) hi
      rw [ew, Option.bind_some, Buf.wr_some (by omega)]
      refine ⟨_, rfl, h1, fun j => ?_⟩
      simp only
      split
      · exact nextRms_lone hw
      · exact h2 j)
  have hmax : Fl.stdMax x x = x := by unfold Fl.stdMax; split <;> rfl
  have hmax0 : Fl.stdMax x (.fin 0) = x := by
    unfold Fl.stdMax
    split
    · rename_i h
      exfalso
      cases x with
      | fin q => simp [Fl.lt] at o1 h; linarith
      | inf s => cases s <;> simp [Fl.lt] at o1 h
      | nan => simp [Fl.lt] at o1
    · rfl
  obtain ⟨s, e2, s1, s2, -, s3⟩ := forRange_inv nAnt
    (fun i (s : Buf Fl × Fl) => (next.rd i).bind fun x => (s.1.rd i).bind fun old =>
      (s.1.wr i (Fl.add Fl.r64 (Fl.mul Fl.r64 x (Fl.r64 (4 / 5))) (Fl.mul Fl.r64 old (Fl.r64 (1 / 5))))).map fun ant =>
        (ant, Fl.stdMax (Fl.add Fl.r64 (Fl.mul Fl.r64 x (Fl.r64 (4 / 5))) (Fl.mul Fl.r64 old (Fl.r64 (1 / 5)))) s.2))
    (st.ant, .fin 0)
    (fun k' s => s.1.len = nAnt ∧ (∀ i, i < k' → s.1.get i = x) ∧ (∀ i, k' ≤ i → i < nAnt → s.1.get i = fade k) ∧
      s.2 = if k' = 0 then .fin 0 else x)
    ⟨hl, fun _ h => by omega, fun i _ hi => ha i hi, rfl⟩ (by
      rintro i ⟨b, mx⟩ hi ⟨h1, h2, h3, h4⟩
      simp only at h1 h2 h3 h4 ⊢
      rw [Buf.rd_some (by omega), Option.bind_some, Buf.rd_some (by omega), Option.bind_some, Buf.wr_some (by omega),
        n2 i, h3 i (Nat.le_refl _) hi, ← hx]
      refine ⟨_, rfl, h1, ?_, ?_, ?_⟩
      · intro j hj
        simp only
        split
        · rfl
        · exact h2 j (by omega)
      · intro j hj hjn
        simp only
        rw [if_neg (by omega)]
        exact h3 j (by omega) hjn
      · simp only [Nat.succ_ne_zero, if_false]
        rw [h4]
        split
        · exact hmax0
        · exact hmax)
  rw [if_neg (by omega)] at s3
  obtain ⟨t, e3, t1, t2, -, t3⟩ := forRange_inv nAnt
    (fun i (t : RmsState) => (t.ant.rd i).bind fun x => (next.rd i).bind fun nx =>
      (t.ant.wr i (if Fl.lt x (Fl.mul Fl.r64 s.2 (Fl.r64 (1 / 100000))) then .fin 0 else x)).map fun ant =>
        (⟨ant, Fl.stdMax t.precision (Fl.div Fl.r64 (Fl.abs (Fl.sub Fl.r64
          (if Fl.lt x (Fl.mul Fl.r64 s.2 (Fl.r64 (1 / 100000))) then .fin 0 else x) nx)) s.2)⟩ : RmsState))
    ⟨s.1, .fin 0⟩
    (fun k' t => t.ant.len = nAnt ∧ (∀ i, i < k' → t.ant.get i = x) ∧ (∀ i, k' ≤ i → i < nAnt → t.ant.get i = x) ∧
      t.precision = if k' = 0 then .fin 0 else .fin 1)
    ⟨s1, fun _ h => by omega, fun i _ hi => s2 i hi, rfl⟩ (by
      rintro i ⟨b, pr⟩ hi ⟨h1, h2, h3, h4⟩
      simp only at h1 h2 h3 h4 ⊢
      rw [Buf.rd_some (by omega), Option.bind_some, Buf.rd_some (by omega), Option.bind_some, Buf.wr_some (by omega),
        n2 i, h3 i (Nat.le_refl _) hi, s3, o2]
      simp only [Bool.false_eq_true, if_false]
      rw [o3]
      refine ⟨_, rfl, h1, ?_, ?_, ?_⟩
      · intro j hj
        simp only
        split
        · rfl
        · exact h2 j (by omega)
      · intro j hj hjn
        simp only
        split
        · rfl
        · exact h3 j (by omega) hjn
      · simp only [Nat.succ_ne_zero, if_false]
        rw [h4]
        split
        · simp [Fl.stdMax, Fl.lt]
        · simp [Fl.stdMax, Fl.lt])
  rw [if_neg (by omega)] at t3
  refine ⟨t, ?_, t1, t2, t3⟩
  unfold rmsIterate
  rw [e1, Option.bind_some, e2, Option.bind_some]
  exact e3

theorem baselineMeas_none {p : Nat} (hp : p < nPol) (h : Holds nR (nPol * nCh) A D data) (hA : AntennasBelow nR nAnt A)
    (hN : NoCross nR (nPol * nCh) A D) :
    ∃ meas, baselineMeas Fl.r64 nPol nCh nAnt p data = some meas ∧ meas.len = nAnt * nAnt ∧
      ∀ j, (meas.get j).2 = .fin 0 := by
  obtain ⟨meas, e, h1, h2⟩ := forRange_inv data.len (fun r meas => (data.rd r).bind fun row =>
    if row.antenna1 = row.antenna2 then some meas else
      forRange nCh (fun ch (meas : Buf (Nat × Fl)) =>
        (row.vis.rd (ch * nPol + p)).bind fun v =>
        (meas.rd (baselineIndex nAnt row.antenna1 row.antenna2)).bind fun m =>
        meas.wr (baselineIndex nAnt row.antenna1 row.antenna2) (includeVis Fl.r64 m v)) meas)
    ⟨nAnt * nAnt, fun _ => (0, .fin 0)⟩
    (fun _ meas => meas.len = nAnt * nAnt ∧ ∀ j, (meas.get j).2 = .fin 0) ⟨rfl, fun _ => rfl⟩ (by
      rintro r meas hr ⟨h1, h2⟩
      have hr' : r < nR := by rw [← h.rows]; exact hr
      rw [Buf.rd_some hr, Option.bind_some]
      by_cases hc : (data.get r).antenna1 = (data.get r).antenna2
      · rw [if_pos hc]
        exact ⟨_, rfl, h1, h2⟩
      · rw [if_neg hc]
        have ha := h.ant r hr'
        have hcr : Cross A r := by
          unfold Cross
          rw [← ha]
          exact hc
        have hb : (data.get r).antenna1 < nAnt ∧ (data.get r).antenna2 < nAnt := by
          have := hA r hr'
          rw [← ha] at this
          exact this
        have hidx := baselineIndex_lt hb.1 hb.2
        refine forRange_inv nCh _ meas (fun _ meas => meas.len = nAnt * nAnt ∧ ∀ j, (meas.get j).2 = .fin 0) ⟨h1, h2⟩ ?_
        rintro c meas hcc ⟨h1, h2⟩
        have hi := chan_lt (nPol := nPol) hcc hp
        rw [Buf.rd_some (by rw [h.len r hr']; exact hi), Option.bind_some, Buf.rd_some (by omega), Option.bind_some,
          Buf.wr_some (by omega)]
        refine ⟨_, rfl, h1, fun j => ?_⟩
        simp only
        split
        · rw [h.vis r _ hr' hi, includeVis]
          rcases hN r _ hr' hi hcr with hv | hv
          · rw [hv]
            exact h2 _
          · rw [hv]
            simp [Fl.isFinite, h2, Fl.mul, Fl.add, Fl.r64_zero]
        · exact h2 j)
  exact ⟨meas, e, h1, h2⟩

theorem antennaRms_lone {sq : Fl → Fl} (hsq : SqrtMono sq) {p : Nat} (hp : p < nPol) (h0 : 0 < nAnt)
    (h : Holds nR (nPol * nCh) A D data) (hA : AntennasBelow nR nAnt A) (hN : NoCross nR (nPol * nCh) A D) :
    ∃ ant, antennaRms Fl.r64 sq nPol nCh nAnt p data = some ant ∧ ant.len = nAnt ∧ ∀ a, a < nAnt → ant.get a = fade 100 := by
  obtain ⟨meas, e1, l1, hm⟩ := baselineMeas_none hp h hA hN
  have hM : Void (rmsMatrix Fl.r64 sq nAnt meas) nAnt := by
    intro i j hi hj
    have hidx := baselineIndex_lt hi hj
    unfold rmsMatrix rms
    rw [Buf.rd_some (by omega), Option.map_some, hm]
    by_cases hc : (meas.get (baselineIndex nAnt i j)).1 = 0
    · left
      have : Fl.div Fl.r64 (.fin 0) (.fin ((0 * 2 : ℕ) : ℚ)) = .nan := by simp [Fl.div]
      rw [hc, this, hsq.nan]
    · right
      have : Fl.div Fl.r64 (.fin 0) (.fin (((meas.get (baselineIndex nAnt i j)).1 * 2 : ℕ) : ℚ)) = .fin 0 := by
        simp [Fl.div, hc, Fl.r64_zero]
      rw [this, hsq.zero]
  have hpr : Fl.lt (Fl.r64 (1 / 1000000)) (.fin 1) = true := by decide +kernel
  obtain ⟨st, e2, s1, s2, -⟩ := forRange_inv 100 (fun _ (st : RmsState) =>
    if Fl.lt (Fl.r64 (1 / 1000000)) st.precision then rmsIterate Fl.r64 nAnt (rmsMatrix Fl.r64 sq nAnt meas) st
    else some st) ⟨⟨nAnt, fun _ => .fin 1⟩, .fin 1⟩
    (fun k st => st.ant.len = nAnt ∧ (∀ i, i < nAnt → st.ant.get i = fade k) ∧ st.precision = .fin 1)
    ⟨rfl, fun _ _ => rfl, rfl⟩ (by
      rintro k st hk ⟨h1, h2, h3⟩
      simp only [h3, hpr, if_true]
      obtain ⟨st', g⟩ := rmsIterate_lone hM h0 hk h1 h2
      exact ⟨st', g⟩)
  refine ⟨st.ant, ?_, s1, s2⟩
  unfold antennaRms
  rw [e1, Option.bind_some, e2]
  rfl

/-! ## The normalised block -/

/-- What becomes of a component `x` of a complete sample: zero, or too large for a float. -/
def Gone (x : ℚ) (y : Fl) : Prop :=
  (x = 0 → y = .fin 0) ∧ (x ≠ 0 → ∃ a, y = .fin a ∧ (2 : ℚ) ^ (200 : ℤ) ≤ |a| ∧ |a| ≤ 2 ^ (900 : ℤ))

theorem Gone.one {x : ℚ} {y : Fl} (h : Gone x y) : Gone x (Fl.mul Fl.r64 y (.fin 1)) := by
  constructor
  · intro hx
    rw [h.1 hx]
    simp [Fl.mul, Fl.r64_zero]
  · intro hx
    obtain ⟨a, rfl, h1, h2⟩ := h.2 hx
    obtain ⟨q, e, k1, k2⟩ := r64_between_abs (x := a * 1) (a := (2 : ℚ) ^ (200 : ℤ)) (b := (2 : ℚ) ^ (900 : ℤ))
      (repr64_pow (by norm_num)) (repr64_pow (by norm_num)) (Fl.zp_pos _).le
      (zle (by norm_num)) (by rw [mul_one]; exact h1) (by rw [mul_one]; exact h2)
    exact ⟨q, e, k1, k2⟩

/-- The conversion to float overflows. -/
theorem Gone.cast {x : ℚ} {y : Fl} (h : Gone x y) (hx : x ≠ 0) : (Fl.cast Fl.r32 y).isFinite = false := by
  obtain ⟨a, rfl, h1, _⟩ := h.2 hx
  have hbig : (2 : ℚ) ^ (200 : ℤ) ≤ |Fl.rnd Fl.binary32 a| := by
    have key : ∀ z : ℚ, (2 : ℚ) ^ (200 : ℤ) ≤ z → (2 : ℚ) ^ (200 : ℤ) ≤ Fl.rnd Fl.binary32 z := by
      intro z hz
      have := Fl.rnd_mono (f := Fl.binary32) (by decide) hz
      rwa [Fl.rnd_of_repr (by decide) (repr32_pow (by norm_num))] at this
    rcases le_or_gt 0 a with h | h
    · rw [abs_of_nonneg h] at h1
      exact le_trans (key a h1) (le_abs_self _)
    · rw [abs_of_neg h] at h1
      have := key _ h1
      rw [Fl.rnd_neg] at this
      exact le_trans this (neg_le_abs _)
  show (Fl.round Fl.binary32 a).isFinite = false
  unfold Fl.round
  rw [if_neg]
  · rfl
  · rw [not_lt]
    exact le_trans (zle (by decide)) hbig

/-- The channel stage: a complete sample keeps its zeros, and the rest stays in range; the factor is a finite float. -/
theorem channel_lost {sq : Fl → Fl} (hsq : SqrtMono sq) (hn : nR ≤ 2 ^ 24) {n : Nat} (hM : Moderate nR n A D) {r i : Nat}
    (hr : r < nR) (hi : i < n) {x y : ℚ} (hD : D r i = ⟨.fin x, .fin y⟩) :
    ∃ s : ℚ, rms Fl.r64 sq (measFold Fl.r64 (fun r => D r i) nR) = .fin s ∧ |s| ≤ 2 ^ (40 : ℤ) ∧
      ∃ x' y', divRms Fl.r64 (.fin s) (D r i) = ⟨.fin x', .fin y'⟩ ∧ Mid (-80) 100 x' ∧ Mid (-80) 100 y' ∧
        (x = 0 ↔ x' = 0) ∧ (y = 0 ↔ y' = 0) := by
  obtain ⟨s, hs, hc⟩ := channel_measured (l := -40) (h := 40) (by norm_num) (by norm_num) (by norm_num)
    (v := fun r => D r i) hn (by
      rintro r hr ⟨x, y, e⟩ a ha
      obtain ⟨h1, h2⟩ := (hM r i hr hi).1 x y e
      rw [e] at ha
      rcases ha with ha | ha
      · obtain rfl : x = a := by simpa using ha
        exact h1
      · obtain rfl : y = a := by simpa using ha
        exact h2)
  obtain ⟨m1, m2⟩ := (hM r i hr hi).1 x y hD
  rcases hs.rms hsq (by norm_num) (by norm_num) (by norm_num) (le_trans hc hn) with ⟨h0, e⟩ | ⟨h0, w, e, w0, w1, w2, hw⟩
  · have := (hs.has (D r i) ⟨r, hr, rfl⟩ ⟨x, y, hD⟩).1
    omega
  · refine ⟨w, e, by rw [abs_of_nonneg w0]; exact w2, ?_⟩
    by_cases hw0 : w = 0
    · have hz : ∀ a, IsComp (D r i) a → Mid (-40) 40 a → a = 0 := by
        intro a ha hm
        by_contra hane
        have := hw (D r i) ⟨r, hr, rfl⟩ ⟨x, y, hD⟩ a ha (-40) (by norm_num) (hm.resolve_left hane).1
        rw [hw0] at this
        exact absurd this (not_le.mpr (Fl.zp_pos _))
      have hx := hz x (Or.inl (by rw [hD])) m1
      have hy := hz y (Or.inr (by rw [hD])) m2
      refine ⟨0, 0, ?_, Or.inl rfl, Or.inl rfl, by simp [hx], by simp [hy]⟩
      rw [hD, hw0, hx, hy]
      simp [divRms, Fl.eq]
    · have hwl := w1.resolve_left hw0
      have key : ∀ a, Mid (-40) 40 a → ∃ q, Fl.r64 (a / w) = .fin q ∧ Mid (-80) 100 q ∧ (a = 0 ↔ q = 0) := by
        intro a ha
        have hpos : 0 < w := lt_of_lt_of_le (Fl.zp_pos _) hwl
        by_cases ha0 : a = 0
        · exact ⟨0, by rw [ha0, zero_div, Fl.r64_zero], Or.inl rfl, by simp [ha0]⟩
        · obtain ⟨a1, a2⟩ := ha.resolve_left ha0
          obtain ⟨q, e, k1, k2⟩ := r64_between_abs (x := a / w) (a := (2 : ℚ) ^ (-80 : ℤ)) (b := (2 : ℚ) ^ (100 : ℤ))
            (repr64_pow (by norm_num)) (repr64_pow (by norm_num)) (Fl.zp_pos _).le (zle (by norm_num))
            (by
              rw [abs_div, abs_of_pos hpos, show (-80 : ℤ) = -40 - 40 by norm_num, ← zsub]
              exact div_le_div₀ (abs_nonneg _) a1 hpos w2)
            (by
              refine le_trans ?_ (zle (by norm_num : (40 : ℤ) - (-40 - 13) ≤ 100))
              rw [abs_div, abs_of_pos hpos, ← zsub]
              exact div_le_div₀ (Fl.zp_pos _).le a2 (Fl.zp_pos _) hwl)
          refine ⟨q, e, Or.inr ⟨k1, k2⟩, ?_⟩
          have hq0 : q ≠ 0 := by
            rintro rfl
            rw [abs_zero] at k1
            exact absurd k1 (not_le.mpr (Fl.zp_pos _))
          simp [ha0, hq0]
      obtain ⟨x', ex, kx, zx⟩ := key x m1
      obtain ⟨y', ey, ky, zy⟩ := key y m2
      refine ⟨x', y', ?_, kx, ky, zx, zy⟩
      rw [hD]
      simp [divRms, Fl.eq, hw0, Cx.divBy, Fl.div, ex, ey]

/-- Multiplication with the factor of a row whose antenna factors have faded. -/
theorem Gone.of_faded {x x' : ℚ} (hx : Mid (-80) 100 x') (hz : x = 0 ↔ x' = 0) :
    Gone x (Fl.mul Fl.r64 (.fin x') (antFactor Fl.r64 (fade 100) (fade 100))) := by
  obtain ⟨F, eF, F1, F2⟩ := faded_factor
  have hF : 0 < F := lt_of_lt_of_le (Fl.zp_pos _) F1
  rw [eF]
  constructor
  · intro h
    rw [hz.mp h]
    simp [Fl.mul, Fl.r64_zero]
  · intro h
    obtain ⟨a1, a2⟩ := hx.resolve_left (fun h' => h (hz.mpr h'))
    obtain ⟨q, e, k1, k2⟩ := r64_between_abs (x := x' * F) (a := (2 : ℚ) ^ (200 : ℤ)) (b := (2 : ℚ) ^ (900 : ℤ))
      (repr64_pow (by norm_num)) (repr64_pow (by norm_num)) (Fl.zp_pos _).le (zle (by norm_num))
      (by
        refine le_trans (zle (by norm_num : (200 : ℤ) ≤ -80 + 400)) ?_
        rw [abs_mul, abs_of_pos hF, ← zadd]
        exact mul_le_mul a1 F1 (Fl.zp_pos _).le (abs_nonneg _))
      (by
        refine le_trans ?_ (zle (by norm_num : (100 : ℤ) + 500 ≤ 900))
        rw [abs_mul, abs_of_pos hF, ← zadd]
        exact mul_le_mul a2 F2 hF.le (Fl.zp_pos _).le)
    exact ⟨q, e, k1, k2⟩

/-- The stored channel factor is a finite float of moderate size. -/
def SmallMeta (m : Fl) : Prop := ∃ q : ℚ, m = .fin q ∧ |q| ≤ 2 ^ (100 : ℤ)

theorem SmallMeta.cast {q : ℚ} (h : |q| ≤ 2 ^ (100 : ℤ)) : SmallMeta (Fl.cast Fl.r32 (.fin q)) := by
  have hle : |Fl.rnd Fl.binary32 q| ≤ 2 ^ (100 : ℤ) := by
    rw [abs_le] at h ⊢
    have h1 := Fl.rnd_mono (f := Fl.binary32) (by decide) h.1
    have h2 := Fl.rnd_mono (f := Fl.binary32) (by decide) h.2
    rw [Fl.rnd_neg, Fl.rnd_of_repr (by decide) (repr32_pow (by norm_num))] at h1
    rw [Fl.rnd_of_repr (by decide) (repr32_pow (by norm_num))] at h2
    exact ⟨h1, h2⟩
  exact ⟨_, Fl.r32_fin (lt_of_le_of_lt hle (zpow_lt_zpow_right₀ (by norm_num) (by norm_num))), hle⟩

theorem SmallMeta.one {m : Fl} (h : SmallMeta m) : SmallMeta (Fl.cast Fl.r32 (Fl.div Fl.r64 m (.fin 1))) := by
  obtain ⟨q, rfl, hq⟩ := h
  obtain ⟨a, e, _, k⟩ := r64_between_abs (x := q / 1) (a := 0) (Fl.Repr.zero _) (repr64_pow (by norm_num : (-1000 : ℤ) ≤ 100)) (le_refl _)
    (zle (by norm_num)) (abs_nonneg _) (by rw [div_one]; exact hq)
  have : Fl.div Fl.r64 (.fin q) (.fin 1) = .fin a := by simpa [Fl.div] using e
  rw [this]
  exact SmallMeta.cast k

/-- The block and the factors, from the end of the normalisation to the end of the fit. -/
structure Lost (nR nPol nCh nAnt : Nat) (A : Nat → Nat × Nat) (D : Nat → Nat → Cx) (len : Nat) (D' : Nat → Nat → Cx)
    (st : Block Cx × Buf Fl) : Prop where
  holds : Holds nR (nPol * nCh) A D' st.1
  len : st.2.len = len
  none : NoCross nR (nPol * nCh) A D'
  gone : ∀ r i x y, r < nR → i < nPol * nCh → D r i = ⟨.fin x, .fin y⟩ → Gone x (D' r i).re ∧ Gone y (D' r i).im
  ant : ∀ p a, p < nPol → a < nAnt → st.2.get (nPol * nCh + (nAnt * p + a)) = .fin 0
  chan : ∀ r i, r < nR → i < nPol * nCh → FullyFinite (D r i) → SmallMeta (st.2.get i)

theorem Lost.normalize {sq : Fl → Fl} (hsq : SqrtMono sq) (hA : AntennasBelow nR nAnt A) (hR : 0 < nR)
    (hrows : nR ≤ 2 ^ 24) (h : Holds nR (nPol * nCh) A D data) (hM : Moderate nR (nPol * nCh) A D)
    (hN : NoCross nR (nPol * nCh) A D) (metaB : Buf Fl) (hb : nPol * nCh + nAnt * nPol ≤ metaB.len) :
    ∃ st D', normalize Fl.r32 Fl.r64 sq nPol nCh nAnt (data, metaB) = some st ∧
      Lost nR nPol nCh nAnt A D metaB.len D' st := by
  have h0 : 0 < nAnt := lt_of_le_of_lt (Nat.zero_le _) (hA 0 hR).1
  obtain ⟨meas, e1, l1, hmeas⟩ := channelMeas_spec (RD := Fl.r64) h
  obtain ⟨D1, data1, meta1, e2, h1, h2, h3, h4, h5⟩ := normalizeChannels_spec (RF := Fl.r32)
    (RD := Fl.r64) (sq := sq) h meas l1 metaB (by omega)
  have hD1 : ∀ r i, r < nR → i < nPol * nCh →
      D1 r i = divRms Fl.r64 (rms Fl.r64 sq (measFold Fl.r64 (fun r => D r i) nR)) (D r i) := by
    intro r i hr hi
    rw [h2 r i hr hi, hmeas i hi]
  obtain ⟨st, e3, D', k1, k2, k3, k4, -, k6, k7⟩ := forRange_inv nPol
    (fun p st => AF.normalizeAntennas Fl.r32 Fl.r64 sq nPol nCh nAnt p st) (data1, meta1)
    (fun k st => ∃ D2, Holds nR (nPol * nCh) A D2 st.1 ∧ st.2.len = metaB.len ∧ NoCross nR (nPol * nCh) A D2 ∧
      (∀ r c p, r < nR → c < nCh → p < nPol → p < k →
        D2 r (c * nPol + p) = (D1 r (c * nPol + p)).scale Fl.r64 (antFactor Fl.r64 (fade 100) (fade 100))) ∧
      (∀ r c p, r < nR → c < nCh → p < nPol → k ≤ p → D2 r (c * nPol + p) = D1 r (c * nPol + p)) ∧
      (∀ p a, p < k → a < nAnt → st.2.get (nPol * nCh + (nAnt * p + a)) = .fin 0) ∧
      ∀ i, i < nPol * nCh → st.2.get i = meta1.get i)
    ⟨D1, h1, h3, fun r i hr hi hc => by
        rw [hD1 r i hr hi]
        exact (hN r i hr hi hc).divRms _,
      fun _ _ _ _ _ _ h => by omega, fun _ _ _ _ _ _ _ => rfl, fun _ _ h => by omega, fun _ _ => rfl⟩ (by
      rintro p ⟨data2, meta2⟩ hp ⟨D2, k1, k2, k3, k4, k5, k6, k7⟩
      simp only at k1 k2 k6 k7
      obtain ⟨ant, ea, la, hant⟩ := antennaRms_lone hsq hp h0 k1 hA k3
      obtain ⟨D3, data3, meta3, e3, g1, g2, g3, g4, g5, g6⟩ := normalizeAntennas_spec
        (RF := Fl.r32) k1 hA hp la ea meta2 (by omega)
      have hcell : ∀ i, i < nPol * nCh → ∃ c p', c < nCh ∧ p' < nPol ∧ i = c * nPol + p' := by
        intro i hi
        have hp0 : 0 < nPol := by omega
        exact ⟨i / nPol, i % nPol, Nat.div_lt_of_lt_mul hi, Nat.mod_lt _ hp0, (Nat.div_add_mod' i nPol).symm⟩
      refine ⟨(data3, meta3), e3, D3, g1, by simp only; omega, ?_, ?_, ?_, ?_, ?_⟩
      · intro r i hr hi hc
        obtain ⟨c, p', hcc, hp', rfl⟩ := hcell i hi
        by_cases hpp : p' = p
        · subst hpp
          obtain ⟨F, hF, -⟩ := faded_factor
          rw [g2 r c hr hcc, hant _ (hA r hr).1, hant _ (hA r hr).2, hF]
          exact (k3 r _ hr hi hc).scale F
        · rw [g3 r c p' hp' hpp]
          exact k3 r _ hr hi hc
      · intro r c p' hr hc hp' hlt
        by_cases hpp : p' = p
        · subst hpp
          rw [g2 r c hr hc, k5 r c p' hr hc hp' (Nat.le_refl _), hant _ (hA r hr).1, hant _ (hA r hr).2]
        · rw [g3 r c p' hp' hpp]
          exact k4 r c p' hr hc hp' (by omega)
      · intro r c p' hr hc hp' hle
        rw [g3 r c p' hp' (by omega)]
        exact k5 r c p' hr hc hp' (by omega)
      · intro p' a hlt ha
        simp only
        by_cases hpp : p' = p
        · subst hpp
          rw [g5 a ha, hant a ha, faded_meta]
        · rw [g6 _ (fun a' ha' he => ?_)]
          · exact k6 p' a (by omega) ha
          · have he' : p' * nAnt + a = p * nAnt + a' := by
              rw [Nat.mul_comm p', Nat.mul_comm p]
              omega
            exact hpp (flat_inj ha ha' he').1
      · intro i hi
        simp only
        rw [g6 i (fun a _ => by omega)]
        exact k7 i hi)
  refine ⟨st, D', ?_, k1, k2, k3, ?_, k6, ?_⟩
  · unfold AF.normalize
    rw [e1, Option.bind_some, e2, Option.bind_some]
    exact e3
  · intro r i x y hr hi hD
    have hp0 : 0 < nPol := by
      rcases Nat.eq_zero_or_pos nPol with h | h
      · rw [h, Nat.zero_mul] at hi
        omega
      · exact h
    obtain ⟨s, es, _, x', y', ev, kx, ky, zx, zy⟩ := channel_lost hsq hrows hM hr hi hD
    have hc := Nat.div_lt_of_lt_mul hi
    have hp := Nat.mod_lt i hp0
    have := k4 r (i / nPol) (i % nPol) hr hc hp hp
    rw [Nat.div_add_mod' i nPol] at this
    rw [this, hD1 r i hr hi, es, ev]
    exact ⟨Gone.of_faded kx zx, Gone.of_faded ky zy⟩
  · rintro r i hr hi ⟨x, y, hD⟩
    rw [k7 i hi, h4 i hR hi, hmeas i hi]
    obtain ⟨s, es, hs, _⟩ := channel_lost hsq hrows hM hr hi hD
    rw [es]
    exact SmallMeta.cast (le_trans hs (zle (by norm_num)))

/-! ## The fit leaves everything as it is -/

theorem NoCross.max {S : Nat → Nat → Prop} {M : ℚ} {n : Nat} (hN : NoCross nR n A D)
    (hS : ∀ r i, S r i → r < nR ∧ i < n ∧ Cross A r) (h : MaxOver S D M) : M = 0 := by
  rcases h.2.2 with h | ⟨r, i, hs, a, ha, hb⟩
  · exact h
  · obtain ⟨hr, hi, hc⟩ := hS r i hs
    rcases hN r i hr hi hc with hv | hv
    · rw [ha] at hv
      simp [Fl.isFinite] at hv
    · rw [hv] at ha hb
      simp only [Fl.fin.injEq] at ha hb
      rcases hb with ⟨b, rfl, rfl⟩ | ⟨hb, -⟩
      · simp [← ha]
      · cases hb

variable {len : Nat} {D' : Nat → Nat → Cx}

theorem Lost.channel {st : Block Cx × Buf Fl} (h : Lost nR nPol nCh nAnt A D len D' st)
    (hb : nPol * nCh + nAnt * nPol ≤ len) {i : Nat} (hi : i < nPol * nCh) :
    ∃ st' D2, changeChannel Fl.r32 Fl.r64 st i (.fin 1) = some st' ∧ Lost nR nPol nCh nAnt A D len D2 st' := by
  obtain ⟨data, metaB⟩ := st
  have hl : metaB.len = len := h.len
  obtain ⟨D2, data', e, k1, k2, k3⟩ := changeChannel_spec (RF := Fl.r32) (RD := Fl.r64) h.holds metaB hi (by omega) (.fin 1)
  refine ⟨_, D2, e, k1, h.len, ?_, ?_, ?_, ?_⟩
  · intro r j hr hj hc
    by_cases hji : j = i
    · subst hji
      rw [k2 r hr]
      exact (h.none r j hr hj hc).scale 1
    · rw [k3 r j hji]
      exact h.none r j hr hj hc
  · intro r j x y hr hj hD
    obtain ⟨g1, g2⟩ := h.gone r j x y hr hj hD
    by_cases hji : j = i
    · subst hji
      rw [k2 r hr]
      exact ⟨g1.one, g2.one⟩
    · rw [k3 r j hji]
      exact ⟨g1, g2⟩
  · intro p a hp ha
    simp only
    rw [if_neg (by omega)]
    exact h.ant p a hp ha
  · intro r j hr hj hf
    simp only
    have := h.chan r j hr hj hf
    split
    · rename_i hji
      rw [← hji]
      exact this.one
    · exact this

theorem Gone.scaleN {x y : ℚ} {v : Cx} (h : Gone x v.re ∧ Gone y v.im) (k : Nat) :
    Gone x (scaleN Fl.r64 (.fin 1) k v).re ∧ Gone y (scaleN Fl.r64 (.fin 1) k v).im := by
  induction k with
  | zero => exact h
  | succ k ih => exact ⟨ih.1.one, ih.2.one⟩

theorem Lost.antenna {st : Block Cx × Buf Fl} (h : Lost nR nPol nCh nAnt A D len D' st)
    (hb : nPol * nCh + nAnt * nPol ≤ len) {a p : Nat} (ha : a < nAnt) (hp : p < nPol) :
    ∃ st' D2, changeAntenna Fl.r32 Fl.r64 nPol nCh nAnt st a p (.fin 1) = some st' ∧
      Lost nR nPol nCh nAnt A D len D2 st' := by
  obtain ⟨data, metaB⟩ := st
  have hl : metaB.len = len := h.len
  obtain ⟨D2, data', e, k1, k2, k3⟩ := changeAntenna_spec (RF := Fl.r32) (RD := Fl.r64) h.holds metaB ha hp (by omega) (.fin 1)
  have hcell : ∀ i, i < nPol * nCh → ∃ c p', c < nCh ∧ p' < nPol ∧ i = c * nPol + p' := by
    intro i hi
    have hp0 : 0 < nPol := by omega
    exact ⟨i / nPol, i % nPol, Nat.div_lt_of_lt_mul hi, Nat.mod_lt _ hp0, (Nat.div_add_mod' i nPol).symm⟩
  refine ⟨_, D2, e, k1, h.len, ?_, ?_, ?_, ?_⟩
  · intro r j hr hj hc
    have hs := h.none r j hr hj hc
    obtain ⟨c, p', hcc, hp', rfl⟩ := hcell j hj
    by_cases hpp : p' = p
    · subst hpp
      rw [k2 r c hr hcc]
      exact hs.scaleN 1 _
    · rw [k3 r c p' hp' hpp]
      exact hs
  · intro r j x y hr hj hD
    have hg := h.gone r j x y hr hj hD
    obtain ⟨c, p', hcc, hp', rfl⟩ := hcell j hj
    by_cases hpp : p' = p
    · subst hpp
      rw [k2 r c hr hcc]
      exact Gone.scaleN hg _
    · rw [k3 r c p' hp' hpp]
      exact hg
  · intro p' a' hp' ha'
    simp only
    have := h.ant p' a' hp' ha'
    simp only at this
    split
    · rename_i he
      rw [← he, this]
      simp [Fl.div, Fl.r64_zero, Fl.cast, Fl.r32_zero]
    · exact this
  · intro r j hr hj hf
    simp only
    rw [if_neg (by omega)]
    exact h.chan r j hr hj hf

theorem lt_one_hundredth : Fl.lt (Fl.r64 (101 / 100)) (.fin 1) = false ∧ Fl.lt (Fl.r64 (1001 / 1000)) (.fin 1) = false := by
  decide +kernel

theorem r64_one_sum : Fl.add Fl.r64 (.fin 0) (.fin 1) = .fin 1 := by decide +kernel

theorem Lost.step (hA : AntennasBelow nR nAnt A) (hc0 : 0 < nCh) (hb : nPol * nCh + nAnt * nPol ≤ len) {p : Nat} (hp : p < nPol)
    {maxLevel : Fl} {st : Block Cx × Buf Fl} (h : Lost nR nPol nCh nAnt A D len D' st) :
    ∃ st' D2, fitStep Fl.r32 Fl.r64 nPol nCh nAnt p maxLevel st = some (st', false) ∧ Lost nR nPol nCh nAnt A D len D2 st' := by
  obtain ⟨data, metaB⟩ := st
  rcases fitStep_spec (RF := Fl.r32) (RD := Fl.r64) (maxLevel := maxLevel) hc0 h.holds hA hp metaB with
    e | ⟨a, M, ha, hM, _, e⟩ | ⟨c, f, hcc, _, hf, e⟩
  · exact ⟨_, D', e, h⟩
  · obtain rfl : M = 0 := h.none.max (by
      rintro r i ⟨hr, hc, _, c, hcc, rfl⟩
      exact ⟨hr, chan_lt hcc hp, hc⟩) hM
    have hf : antennaFactor Fl.r64 maxLevel (.fin 0) = .fin 1 := by simp [antennaFactor, Fl.eq]
    obtain ⟨st', D2, e', ht⟩ := h.antenna hb ha hp
    rw [hf, e', lt_one_hundredth.1] at e
    exact ⟨st', D2, e, ht⟩
  · obtain rfl : f = .fin 1 := by
      rcases hf with hf | ⟨M, hM, hf⟩
      · exact hf
      · obtain rfl : M = 0 := h.none.max (by
          rintro r i ⟨hr, hc, rfl⟩
          exact ⟨hr, chan_lt hcc hp, hc⟩) hM
        rw [hf]
        have : gain Fl.r64 maxLevel (.fin 0) = .fin 0 := by simp [gain, Fl.eq]
        rw [this, r64_one_sum]
    obtain ⟨st', D2, e', ht⟩ := h.channel hb (chan_lt hcc hp)
    rw [e', lt_one_hundredth.2] at e
    exact ⟨st', D2, e, ht⟩

theorem Lost.fit (hA : AntennasBelow nR nAnt A) (hc0 : 0 < nCh) (hb : nPol * nCh + nAnt * nPol ≤ len) {maxLevel : Fl} {fuel : Nat}
    (hfuel : 0 < fuel) {st : Block Cx × Buf Fl} (h : Lost nR nPol nCh nAnt A D len D' st) :
    ∃ st' D2, fitToMaximum Fl.r32 Fl.r64 nPol nCh nAnt maxLevel fuel st = some (some st') ∧
      Lost nR nPol nCh nAnt A D len D2 st' := by
  obtain ⟨st1, e1, D1, h1⟩ := forRange_inv (nPol * nCh) (fun i st => (crossMax st.1 i).bind fun mx =>
    changeChannel Fl.r32 Fl.r64 st i (firstFactor Fl.r64 maxLevel mx)) st
    (fun _ st => ∃ D2, Lost nR nPol nCh nAnt A D len D2 st) ⟨D', h⟩ (by
      rintro i st hi ⟨D2, hk⟩
      obtain ⟨M, eM, hM⟩ := crossMax_spec hk.holds hi
      obtain rfl : M = 0 := hk.none.max (by
        rintro r j ⟨hr, hc, rfl⟩
        exact ⟨hr, hi, hc⟩) hM
      have hf : firstFactor Fl.r64 maxLevel (.fin 0) = .fin 1 := by simp [firstFactor, Fl.eq]
      rw [eM, Option.bind_some, hf]
      obtain ⟨st', D3, e, ht⟩ := hk.channel hb hi
      exact ⟨st', e, D3, ht⟩)
  have hpols : ∀ p, p ≤ nPol → ∃ st' D2, fitPols Fl.r32 Fl.r64 nPol nCh nAnt maxLevel fuel p st1 = some (some st') ∧
      Lost nR nPol nCh nAnt A D len D2 st' := by
    intro p
    induction p with
    | zero => exact fun _ => ⟨st1, D1, rfl, h1⟩
    | succ p ih =>
      intro hp
      obtain ⟨st', D2, e, hk⟩ := ih (by omega)
      obtain ⟨st2, D3, e', ht⟩ := hk.step (maxLevel := maxLevel) hA hc0 hb (p := p) (by omega)
      refine ⟨st2, D3, ?_, ht⟩
      unfold fitPols
      rw [e, Option.bind_some]
      obtain ⟨f, rfl⟩ : ∃ f, fuel = f + 1 := ⟨fuel - 1, by omega⟩
      simp only [doWhile]
      rw [e', Option.bind_some]
      rfl
  unfold fitToMaximum fitChannels
  rw [e1, Option.bind_some]
  exact hpols nPol (Nat.le_refl _)

/-! ## The property -/

/-- What is decoded for a component `x` of a complete sample. -/
def Returned (x : ℚ) (y : Fl) : Prop := (x ≠ 0 → y = .nan) ∧ (x = 0 → y = .fin 0)

/-- **C110**: with antenna-frequency normalisation, a block of moderate data without a usable cross-correlation is encoded and
decoded without error, but its autocorrelations are lost: every non-zero component of a complete sample comes back as NaN. Only
zeros come back. One iteration of the fit suffices. -/
theorem af_autocorrelations_lost {sq : Fl → Fl} (hsq : SqrtMono sq) {e : Encoder} {b l : Nat → ℚ} {L : ℚ} (hT : Table e b l L)
    (dithered : Bool) (dith : Nat → Nat) (hc0 : 0 < nCh) (hR : 0 < nR) (hrows : nR ≤ 2 ^ 24)
    (h : Holds nR (nPol * nCh) A D data) (hA : AntennasBelow nR nAnt A) (hM : Moderate nR (nPol * nCh) A D)
    (hN : ∀ r i, r < nR → i < nPol * nCh → (A r).1 ≠ (A r).2 → (D r i).re.isFinite = false ∨ D r i = ⟨.fin 0, .fin 0⟩)
    (metaB : Buf Fl)
    (hb : metaDataCount nR nPol nCh nAnt ≤ metaB.len) (sym : Buf Nat)
    (hs : TimeBlock.symbolCount nR nPol nCh ≤ sym.len) {fuel : Nat} (hfuel : 0 < fuel) :
    ∃ metaB' sym', encode Fl.r32 Fl.r64 sq (encFn Fl.r32 e dithered) e.maxQuantity nPol nCh nAnt dith fuel data metaB sym =
        some (some (metaB', sym')) ∧
      ∀ (dest : Block Cx) (r : Nat), r < nR → r < dest.len →
        ∃ dest', decode Fl.r32 Fl.r64 e.decode nPol nCh nAnt metaB' dest sym' r (A r).1 (A r).2 = some dest' ∧
          ∀ i x y, i < nPol * nCh → D r i = ⟨.fin x, .fin y⟩ →
            Returned x ((dest'.get r).vis.get i).re ∧ Returned y ((dest'.get r).vis.get i).im := by
  have hb : nPol * nCh + nAnt * nPol ≤ metaB.len := by
    rw [metaDataCount, Nat.mul_add, Nat.mul_comm nPol nAnt] at hb
    exact hb
  have hs : nR * (nPol * nCh) * 2 ≤ sym.len := by
    have e : TimeBlock.symbolCount nR nPol nCh = nR * (nPol * nCh) * 2 := by unfold TimeBlock.symbolCount; ring
    rwa [e] at hs
  obtain ⟨st0, D0, en, hk0⟩ := Lost.normalize hsq hA hR hrows h hM hN metaB hb
  obtain ⟨⟨data1, meta1⟩, D1, ef, hk⟩ := hk0.fit (maxLevel := e.maxQuantity) hA hc0 hb hfuel
  have hl : meta1.len = metaB.len := hk.len
  obtain ⟨sym', e2, g1, g2, _, g4⟩ := quantise_total (RF := Fl.r32) (hT.total Fl.r32 dithered)
    (dith := dith) hk.holds sym hs
  refine ⟨meta1, sym', ?_, ?_⟩
  · unfold encode
    rw [en, Option.bind_some, ef, Option.bind_some]
    simp only
    rw [e2]
    rfl
  intro dest r hr hd
  have hrow : (r * (nPol * nCh) + nPol * nCh) * 2 ≤ nR * (nPol * nCh) * 2 := by
    have : (r + 1) * (nPol * nCh) ≤ nR * (nPol * nCh) := Nat.mul_le_mul_right _ hr
    rw [Nat.add_mul, Nat.one_mul] at this
    omega
  obtain ⟨dest', ed, _, _, _, _, _, d6⟩ := decode_spec (RF := Fl.r32) (RD := Fl.r64)
    (nPol := nPol) (nCh := nCh) hT meta1 sym' dest r (A r).1 (A r).2 hd (hA r hr).1 (hA r hr).2
    (by omega) (by omega) (fun j hj => g2 j (by omega))
  refine ⟨dest', ed, ?_⟩
  intro i x y hi hD
  have hp0 : 0 < nPol := by
    rcases Nat.eq_zero_or_pos nPol with h | h
    · rw [h, Nat.zero_mul] at hi
      omega
    · exact h
  obtain ⟨s1, s2⟩ := g4 r i hr hi
  obtain ⟨n1, n2⟩ := hk.gone r i x y hr hi hD
  obtain ⟨m, em, _⟩ := hk.chan r i hr hi ⟨x, y, hD⟩
  have z1 := hk.ant (i % nPol) (A r).1 (Nat.mod_lt i hp0) (hA r hr).1
  have z2 := hk.ant (i % nPol) (A r).2 (Nat.mod_lt i hp0) (hA r hr).2
  simp only at em z1 z2
  have key : ∀ (x : ℚ) (v : Fl) (d s : Nat), Gone x v → encFn Fl.r32 e dithered (Fl.cast Fl.r32 v) d = some s →
      Returned x (Fl.cast Fl.r32 (Fl.mul Fl.r64 (e.level s) (Fl.mul Fl.r64 (.fin m) (Fl.mul Fl.r64 (.fin 0) (.fin 0))))) := by
    intro x v d s hg hs
    constructor
    · intro hx
      rw [hT.nonfinite Fl.r32 dithered (hg.cast hx) d hs]
      rfl
    · intro hx
      rw [hg.1 hx, show Fl.cast Fl.r32 (.fin 0) = .fin 0 by simp only [Fl.cast, Fl.r32_zero]] at hs
      obtain ⟨q, eq⟩ := hT.finite Fl.r32 dithered (by norm_num [fltMax]) d hs
      rw [eq]
      simp [Fl.mul, Fl.r64_zero, Fl.cast, Fl.r32_zero]
  rw [d6 _ hi, em, z1, z2]
  exact ⟨key x _ _ _ n1 s1, key y _ _ _ n2 s2⟩

/-- An autocorrelation beside a flagged cross-correlation. -/
example : Holds 2 (1 * 1) (fun r => (0, r)) (fun r _ => if r = 0 then ⟨.fin 3, .fin 0⟩ else ⟨.nan, .nan⟩)
      ⟨2, fun r => ⟨0, r, ⟨1, fun _ => if r = 0 then ⟨.fin 3, .fin 0⟩ else ⟨.nan, .nan⟩⟩⟩⟩ ∧
    AntennasBelow 2 2 (fun r => (0, r)) ∧ SqrtMono coarseSqrt ∧
    Moderate 2 (1 * 1) (fun r => (0, r)) (fun r _ => if r = 0 then ⟨.fin 3, .fin 0⟩ else ⟨.nan, .nan⟩) ∧
    ∀ r i, r < 2 → i < 1 * 1 → ((fun r => (0, r)) r : Nat × Nat).1 ≠ ((fun r => (0, r)) r : Nat × Nat).2 →
      ((fun r _ => if r = 0 then ⟨.fin 3, .fin 0⟩ else ⟨.nan, .nan⟩ : Nat → Nat → Cx) r i).re.isFinite = false := by
  refine ⟨⟨rfl, fun _ _ => rfl, fun _ _ => rfl, fun _ _ _ _ => rfl⟩, fun _ hr => ⟨by norm_num, hr⟩, coarseSqrt_mono, ?_, ?_⟩
  · intro r i hr hi
    refine ⟨?_, ?_⟩
    · intro a b hab
      simp only at hab
      split at hab
      · simp only [Cx.mk.injEq, Fl.fin.injEq] at hab
        obtain ⟨rfl, rfl⟩ := hab
        norm_num
      · simp at hab
    · intro _ a hab
      simp only at hab
      split at hab <;> simp at hab
  · intro r i hr hi hne
    simp only at hne ⊢
    rw [if_neg (Ne.symm hne)]
    rfl

end Dysco.AF
