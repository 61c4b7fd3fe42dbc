import Verif.TimeBlockLemmas
import Verif.ScaleLemmas
import Verif.StochasticProps

/-!
# Vocabulary of the properties of the data encoders

* `Table e b l L`: a well-formed quantisation table with boundaries `b`, levels `l` and largest level `L`
  (C12 shows that the constructors produce these).
* `Counted v m`: the largest component of the visibility `v` is the finite number `m`. By the rules of
  `std::max` this is also the case when the imaginary part is NaN, but not when the real part is NaN.
* `IsMax n v M`: `M` is the largest of these over `v 0 … v (n-1)`, or zero if there are none.
-/

namespace Dysco
open TimeBlock Stochastic

/-- The tables of a quantiser with increasing boundaries `b` and levels `l`, of which `L` is the largest. Not in the code. -/
structure Table (e : Encoder) (b l : Nat → ℚ) (L : ℚ) : Prop where
  bounds : Boundaries e b
  levels : Levels e l
  top : l (e.n - 1) = L
  pos : 0 < L
  le : L ≤ fltMax

/-- `m` is the largest absolute value of the parts of `v` that the search for the maximum looks at. Not in the code. -/
def Counted (v : Cx) (m : ℚ) : Prop :=
  ∃ a, v.re = .fin a ∧ ((∃ b, v.im = .fin b ∧ m = max |a| |b|) ∨ (v.im = .nan ∧ m = |a|))

/-- `M` is the largest value that counts, or zero if there is none. Not in the code. -/
def IsMax (n : Nat) (v : Nat → Cx) (M : ℚ) : Prop :=
  0 ≤ M ∧ (∀ i m, i < n → Counted (v i) m → m ≤ M) ∧
    (M = 0 ∨ ∃ i, i < n ∧ Counted (v i) M)

/-- Finite components are binary32 numbers. -/
def FloatVis (v : Cx) : Prop :=
  ∀ a, (v.re = .fin a ∨ v.im = .fin a) → Fl.Repr Fl.binary32 a ∧ |a| < 2 ^ (128 : ℤ)

/-- The quantiser has error at most `δ` for numbers within the largest level. -/
def Accurate (enc : Fl → Nat → Option Nat) (dec : Nat → Option Fl) (L δ : ℚ) : Prop :=
  ∀ x d, |x| ≤ L → ∃ s y, enc (.fin x) d = some s ∧ dec s = some (.fin y) ∧ |y - x| ≤ δ

theorem Counted.nonneg {v : Cx} {m : ℚ} (h : Counted v m) : 0 ≤ m := by
  obtain ⟨a, _, ⟨b, _, rfl⟩ | ⟨_, rfl⟩⟩ := h
  · exact le_trans (abs_nonneg a) (le_max_left _ _)
  · exact abs_nonneg a

theorem Counted.re_le {v : Cx} {m a : ℚ} (h : Counted v m) (ha : v.re = .fin a) : |a| ≤ m := by
  obtain ⟨a', e, h'⟩ := h
  rw [ha] at e
  obtain rfl : a = a' := by simpa using e
  obtain ⟨b, _, rfl⟩ | ⟨_, rfl⟩ := h'
  · exact le_max_left _ _
  · exact le_refl _

theorem Counted.im_le {v : Cx} {m a : ℚ} (h : Counted v m) (ha : v.im = .fin a) : |a| ≤ m := by
  obtain ⟨a', e, h'⟩ := h
  obtain ⟨b, e2, rfl⟩ | ⟨e2, rfl⟩ := h'
  · rw [ha] at e2
    obtain rfl : a = b := by simpa using e2
    exact le_max_right _ _
  · rw [ha] at e2
    simp at e2

/-- A counted magnitude is the magnitude of a component. -/
theorem Counted.attained {v : Cx} {m : ℚ} (h : Counted v m) :
    ∃ a, (v.re = .fin a ∨ v.im = .fin a) ∧ |a| = m := by
  obtain ⟨a, e, ⟨b, e2, rfl⟩ | ⟨_, rfl⟩⟩ := h
  · rcases le_total |a| |b| with h | h
    · exact ⟨b, Or.inr e2, by rw [max_eq_right h]⟩
    · exact ⟨a, Or.inl e, by rw [max_eq_left h]⟩
  · exact ⟨a, Or.inl e, rfl⟩

theorem Counted.unique {v : Cx} {m m' : ℚ} (h : Counted v m) (h' : Counted v m') : m = m' := by
  obtain ⟨a, ha, e⟩ := h.attained
  obtain ⟨a', ha', e'⟩ := h'.attained
  apply le_antisymm
  · rw [← e]
    rcases ha with h1 | h1
    · exact h'.re_le h1
    · exact h'.im_le h1
  · rw [← e']
    rcases ha' with h1 | h1
    · exact h.re_le h1
    · exact h.im_le h1

theorem stdMax_fin (x y : ℚ) : Fl.stdMax (.fin x) (.fin y) = .fin (max x y) := by
  by_cases h : x < y
  · simp [Fl.stdMax, Fl.lt, h, max_eq_right h.le]
  · simp [Fl.stdMax, Fl.lt, h, max_eq_left (not_lt.mp h)]

theorem absMax_counted {v : Cx} {m : ℚ} : absMax v = .fin m ↔ Counted v m := by
  unfold absMax Counted
  cases hre : v.re with
  | nan => simp [Fl.stdMax, Fl.abs, Fl.lt]
  | inf x =>
    constructor
    · intro h
      cases him : v.im <;> simp [Fl.stdMax, Fl.abs, Fl.lt, him] at h
    · rintro ⟨a, h, _⟩
      simp at h
  | fin a =>
    cases him : v.im with
    | nan => simp [Fl.stdMax, Fl.abs, Fl.lt, eq_comm]
    | inf x => simp [Fl.stdMax, Fl.abs, Fl.lt]
    | fin b =>
      rw [show Fl.abs (.fin a) = .fin |a| from rfl, show Fl.abs (.fin b) = .fin |b| from rfl, stdMax_fin]
      simp [eq_comm]

/-- The running maximum is the maximum of the counted magnitudes. -/
theorem maxFold_spec (v : Nat → Cx) (n : Nat) : ∃ M, maxFold v n = .fin M ∧ IsMax n v M := by
  induction n with
  | zero => exact ⟨0, rfl, le_refl _, fun i m h => by omega, Or.inl rfl⟩
  | succ n ih =>
    obtain ⟨M, e, h0, h1, h2⟩ := ih
    rw [maxFold, e]
    by_cases hc : ∃ m, absMax (v n) = .fin m
    · obtain ⟨m, hm⟩ := hc
      have hC := absMax_counted.mp hm
      simp only [maxStep, hm, Fl.isFinite, Fl.stdMax, Fl.lt, if_true]
      by_cases hlt : M < m
      · refine ⟨m, by simp [hlt], hC.nonneg, ?_, Or.inr ⟨n, by omega, hC⟩⟩
        intro i m' hi hm'
        rcases Nat.lt_or_eq_of_le (Nat.le_of_lt_succ hi) with h | h
        · exact le_trans (h1 i m' h hm') hlt.le
        · rw [h] at hm'
          rw [hm'.unique hC]
      · refine ⟨M, by simp [hlt], h0, ?_, ?_⟩
        · intro i m' hi hm'
          rcases Nat.lt_or_eq_of_le (Nat.le_of_lt_succ hi) with h | h
          · exact h1 i m' h hm'
          · rw [h] at hm'
            rw [hm'.unique hC]
            exact not_lt.mp hlt
        · rcases h2 with h | ⟨i, hi, h⟩
          · exact Or.inl h
          · exact Or.inr ⟨i, by omega, h⟩
    · have hnf : (absMax (v n)).isFinite = false := by
        cases hx : absMax (v n) with
        | fin m => exact absurd ⟨m, hx⟩ hc
        | inf _ => rfl
        | nan => rfl
      simp only [maxStep, hnf]
      refine ⟨M, rfl, h0, ?_, ?_⟩
      · intro i m' hi hm'
        rcases Nat.lt_or_eq_of_le (Nat.le_of_lt_succ hi) with h | h
        · exact h1 i m' h hm'
        · rw [h] at hm'
          exact absurd ⟨m', absMax_counted.mpr hm'⟩ hc
      · rcases h2 with h | ⟨i, hi, h⟩
        · exact Or.inl h
        · exact Or.inr ⟨i, by omega, h⟩

theorem IsMax.unique {n : Nat} {v : Nat → Cx} {M M' : ℚ} (h : IsMax n v M) (h' : IsMax n v M') :
    M = M' := by
  have aux : ∀ {A B : ℚ}, IsMax n v A → IsMax n v B → A ≤ B := by
    intro A B hA hB
    rcases hA.2.2 with h0 | ⟨i, hi, hc⟩
    · rw [h0]; exact hB.1
    · exact hB.2.1 i A hi hc
  exact le_antisymm (aux h h') (aux h' h)

theorem maxFold_eq {n : Nat} {v : Nat → Cx} {M : ℚ} (h : IsMax n v M) : maxFold v n = .fin M := by
  obtain ⟨M', e, h'⟩ := maxFold_spec v n
  rw [e, h.unique h']

/-! ## The quantiser -/

section
variable {e : Encoder} {b l : Nat → ℚ} {L : ℚ}

theorem Table.maxQuantity (h : Table e b l L) : e.maxQuantity = .fin L := by
  have := h.levels.two
  rw [Encoder.maxQuantity, h.levels.eq _ (by omega), h.top]

theorem Table.total (h : Table e b l L) (R : ℚ → Fl) (dithered : Bool) :
    Total (encFn R e dithered) e.quantCount := by
  intro v d
  by_cases hv : ∃ x, v = .fin x
  · obtain ⟨x, rfl⟩ := hv
    cases dithered with
    | true =>
      obtain ⟨s, h1, h2, _⟩ := dither_neighbour h.levels R x d
      exact ⟨s, by simpa [encFn] using h1, by simp only [Encoder.quantCount]; omega⟩
    | false =>
      obtain ⟨i, ei, h1, _, _⟩ :=
        lowerBound_fl e.n h.bounds.two e.bound b h.bounds.eq h.bounds.asc x
      exact ⟨i, by simp [encFn, Encoder.encode, Fl.isFinite, ei, symbol_false],
        by simp only [Encoder.quantCount]; omega⟩
  · have := nonfinite_reserved h.levels R v (fun q hq => hv ⟨q, hq⟩) d
    refine ⟨e.quantCount - 1, ?_, by simp [Encoder.quantCount]⟩
    cases dithered <;> simp [encFn, this.1, this.2.1]

theorem Table.decode_some (h : Table e b l L) {s : Nat} (hs : s < e.quantCount) :
    e.decode s = some (e.level s) := by
  simp only [Encoder.quantCount] at hs
  rw [Encoder.decode, if_pos (by rw [h.levels.cap]; exact hs)]

/-- Non-finite numbers come back as NaN. -/
theorem Table.nonfinite (h : Table e b l L) (R : ℚ → Fl) (dithered : Bool) {v : Fl}
    (hv : v.isFinite = false) (d : Nat) {s : Nat} (hs : encFn R e dithered v d = some s) :
    e.level s = .nan := by
  have := nonfinite_reserved h.levels R v (fun q hq => by rw [hq] at hv; simp [Fl.isFinite] at hv) d
  have hsn : s = e.n := by
    cases dithered with
    | true => simp only [encFn, if_true, this.2.1, Encoder.quantCount] at hs; simpa using hs.symm
    | false =>
      simp only [encFn, this.1, Encoder.quantCount] at hs
      simpa using hs.symm
  rw [hsn, h.levels.slot]

/-- Finite numbers up to the largest float come back as a finite level. -/
theorem Table.finite (h : Table e b l L) (R : ℚ → Fl) (dithered : Bool) {x : ℚ}
    (hx : x ≤ fltMax) (d : Nat) {s : Nat} (hs : encFn R e dithered (.fin x) d = some s) :
    ∃ y, e.level s = .fin y := by
  obtain ⟨⟨s1, y1, a1, a2, a3⟩, s2, y2, b1, b2, b3⟩ := finite_not_reserved h.bounds h.levels R hx d
  cases dithered with
  | true =>
    have : s2 = s := by
      simp only [encFn, if_true, b1] at hs
      simpa using hs
    subst this
    exact ⟨l s2, h.levels.eq s2 (by simpa [Encoder.quantCount] using b2)⟩
  | false =>
    have : s1 = s := by
      simp only [encFn, a1] at hs
      simpa using hs
    subst this
    exact ⟨l s1, h.levels.eq s1 (by simpa [Encoder.quantCount] using a2)⟩

/-- Dithering is accurate to the largest distance between levels, when the distance between the lowest level
and the negative of the largest level is not larger. -/
theorem dither_accurate (h : Table e b l L) (R : ℚ → Fl) (δ : ℚ) (h0 : 0 ≤ δ) (hlo : l 0 + L ≤ δ)
    (hgap : ∀ k, k + 1 < e.n → l (k + 1) - l k ≤ δ) :
    Accurate (encFn R e true) e.decode L δ := by
  intro x d hx
  have hx' := abs_le.mp hx
  obtain ⟨s, h1, h2, h3⟩ := dither_neighbour h.levels R x d
  refine ⟨s, l s, by simpa [encFn] using h1, ?_, ?_⟩
  · rw [h.decode_some (by simp only [Encoder.quantCount]; omega), h.levels.eq s h2]
  · rcases h3 with ⟨a, rfl⟩ | ⟨a, _⟩ | ⟨k, hk, hk1, hk2, rfl | rfl⟩
    · rw [abs_le]
      constructor <;> linarith
    · rw [h.top] at a
      linarith
    · rw [abs_le]
      have := hgap s hk
      constructor <;> linarith
    · rw [abs_le]
      have := hgap k hk
      constructor <;> linarith

end

/-! ## Scaling a component -/

theorem mul_nonfinite {R : ℚ → Fl} {v f : Fl} (h : v.isFinite = false) :
    (Fl.mul R v f).isFinite = false := by
  cases v with
  | fin q => simp [Fl.isFinite] at h
  | inf x =>
    cases f with
    | fin y =>
      simp only [Fl.mul]
      split <;> rfl
    | inf y => rfl
    | nan => rfl
  | nan => cases f <;> rfl

theorem cast_nonfinite {R : ℚ → Fl} {v : Fl} (h : v.isFinite = false) :
    (Fl.cast R v).isFinite = false := by
  cases v with
  | fin q => simp [Fl.isFinite] at h
  | inf x => rfl
  | nan => rfl

theorem rowFactor_zero {RD : ℚ → Fl} {ml : Fl} : Row.rowFactor RD ml (.fin 0) = .fin 1 := by
  simp [Row.rowFactor, Fl.eq]

theorem rowFactor_pos {RD : ℚ → Fl} {L M : ℚ} (hM : M ≠ 0) :
    Row.rowFactor RD (.fin L) (.fin M) = Fl.div RD (.fin L) (.fin M) := by
  simp [Row.rowFactor, Fl.eq, hM]

theorem mul_div_exact {a L M : ℚ} (hM : M ≠ 0) :
    Fl.mul Fl.exact (.fin a) (Fl.div Fl.exact (.fin L) (.fin M)) = .fin (a * (L / M)) := by
  simp [Fl.mul, Fl.div, hM, Fl.exact]

theorem cast_exact (v : Fl) : Fl.cast Fl.exact v = v := by cases v <;> rfl

theorem fltMax_lt : fltMax < 2 ^ (128 : ℤ) := by norm_num [fltMax]

end Dysco
