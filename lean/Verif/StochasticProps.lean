import Verif.StochasticLemmas
import Mathlib.Algebra.BigOperators.Intervals
import Mathlib.Algebra.Order.Floor.Semiring

/-!
# Properties C06 – C13 of the stochastic encoder

Specification vocabulary: an encoder has `q - 1` quantisation levels and `q - 1` right boundaries.
`Boundaries e b` and `Levels e l` say that the encoder holds these finite numbers; the rest of the
statements are about `b`, `l` and the results of `Encode`, `EncodeWithDithering` and `Decode` only.
-/

namespace Dysco.Stochastic

open Dictionary

/-- The encoder has at least two finite ascending right boundaries, the last one being the largest
finite float. -/
structure Boundaries (e : Encoder) (b : Nat → ℚ) : Prop where
  two : 2 ≤ e.n
  eq : ∀ i, i < e.n → e.bound i = .fin (b i)
  asc : Ascending e.n b
  last : b (e.n - 1) = fltMax

/-- The encoder has at least two finite ascending levels, and a NaN in the reserved slot. -/
structure Levels (e : Encoder) (l : Nat → ℚ) : Prop where
  two : 2 ≤ e.n
  eq : ∀ i, i < e.n → e.level i = .fin (l i)
  asc : StrictlyAscending e.n l
  cap : e.cap = e.n + 1
  slot : e.level e.n = .nan

theorem StrictlyAscending.asc {n : Nat} {l : Nat → ℚ} (h : StrictlyAscending n l) :
    Ascending n l := by
  intro i j hij hj
  rcases Nat.lt_or_eq_of_le hij with h1 | h1
  · exact le_of_lt (h i j h1 hj)
  · rw [h1]

/-! ## C06 -/

/-- **C06**: `Encode` of a finite value returns `s` exactly when the value lies in cell `s`. -/
theorem encode_iff_cell {e : Encoder} {b : Nat → ℚ} (h : Boundaries e b) {x : ℚ}
    (hx : x ≤ fltMax) (s : Nat) :
    e.encode (.fin x) = some s ↔ s < e.n ∧ (0 < s → b (s - 1) < x) ∧ x ≤ b s := by
  obtain ⟨i, ei, h1, h2, h3⟩ := lowerBound_fl e.n h.two e.bound b h.eq h.asc x
  have he : e.encode (.fin x) = some i := by
    simp [Encoder.encode, Fl.isFinite, ei, symbol_false]
  have hin : i < e.n := by
    by_contra hc
    have := h2 (e.n - 1) (by have := h.two; omega)
    rw [h.last] at this
    exact absurd this (not_lt.mpr hx)
  have hi : i < e.n ∧ (0 < i → b (i - 1) < x) ∧ x ≤ b i :=
    ⟨hin, fun h0 => h2 (i - 1) (by omega), h3 hin⟩
  rw [he]
  constructor
  · intro hs
    obtain rfl : i = s := by simpa using hs
    exact hi
  · rintro ⟨a1, a2, a3⟩
    congr 1
    rcases Nat.lt_trichotomy i s with hlt | heq | hgt
    · have := h.asc i (s - 1) (by omega) (by omega)
      have := a2 (by omega)
      linarith [hi.2.2]
    · exact heq
    · linarith [h2 s hgt]

/-- **C06**: every finite float is in some cell, never in the reserved one, and the reported right
boundary of the cell is not below the value. -/
theorem encode_finite {e : Encoder} {b : Nat → ℚ} (h : Boundaries e b) {x : ℚ}
    (hx : x ≤ fltMax) :
    ∃ s r, e.encode (.fin x) = some s ∧ s < e.quantCount - 1 ∧
      e.rightBoundary s = .fin r ∧ x ≤ r ∧
      (∀ t, t < s → ∃ r', e.rightBoundary t = .fin r' ∧ r' < x) := by
  obtain ⟨i, ei, h1, h2, h3⟩ := lowerBound_fl e.n h.two e.bound b h.eq h.asc x
  have he : e.encode (.fin x) = some i := by
    simp [Encoder.encode, Fl.isFinite, ei, symbol_false]
  obtain ⟨hin, _, hle⟩ := (encode_iff_cell h hx i).mp he
  refine ⟨i, b i, he, by simpa [Encoder.quantCount] using hin, ?_, hle, ?_⟩
  · rw [Encoder.rightBoundary, if_pos (by omega), h.eq i hin]
  · intro t ht
    refine ⟨b t, ?_, h2 t ht⟩
    rw [Encoder.rightBoundary, if_pos (by omega), h.eq t (by omega)]

/-- **C06**: larger values never get smaller symbols. -/
theorem encode_monotone {e : Encoder} {b : Nat → ℚ} (h : Boundaries e b) {x y : ℚ}
    (hxy : x ≤ y) (hy : y ≤ fltMax) {s t : Nat} (hs : e.encode (.fin x) = some s)
    (ht : e.encode (.fin y) = some t) : s ≤ t := by
  obtain ⟨h1, h2, _⟩ := (encode_iff_cell h (le_trans hxy hy) s).mp hs
  obtain ⟨h3, _, h4⟩ := (encode_iff_cell h hy t).mp ht
  by_contra hc
  have := h.asc t (s - 1) (by omega) (by omega)
  linarith [h2 (by omega)]

/-- Note on the source comment "if the input is max, it will be encoded as an inf": the largest float
is encoded as the last ordinary symbol (unless the table is degenerate), not as the reserved one. -/
theorem encode_fltMax {e : Encoder} {b : Nat → ℚ} (h : Boundaries e b)
    (hb : b (e.n - 2) < fltMax) : e.encode (.fin fltMax) = some (e.n - 1) := by
  have h2 := h.two
  rw [encode_iff_cell h (le_refl _)]
  refine ⟨by omega, fun _ => ?_, ?_⟩
  · have : e.n - 1 - 1 = e.n - 2 := by omega
    rw [this]
    exact hb
  · exact le_of_eq h.last.symm

/-! ## C09 -/

/-- What dithering does, before looking at the dither decision. -/
theorem dither_search {e : Encoder} {l : Nat → ℚ} (h : Levels e l) (R : ℚ → Fl) (x : ℚ) (d : Nat) :
    (x ≤ l 0 ∧ e.encodeDither R (.fin x) d = some 0) ∨
    (l (e.n - 1) < x ∧ e.encodeDither R (.fin x) d = some (e.n - 1)) ∨
    (∃ k, k + 1 < e.n ∧ l k < x ∧ x ≤ l (k + 1) ∧
      e.encodeDither R (.fin x) d =
        if Fl.lt (R d) (Fl.div R (Fl.mul R (.fin (2 ^ 31)) (R (x + -(l k)))) (R (l (k + 1) + -(l k))))
        then some (k + 1) else some k) := by
  obtain ⟨i, ei, h1, h2, h3⟩ := lowerBound_fl e.n h.two e.level l h.eq (StrictlyAscending.asc h.asc) x
  have hn := h.two
  by_cases h0 : i = 0
  · left
    subst h0
    exact ⟨h3 (by omega), by simp [Encoder.encodeDither, Fl.isFinite, ei, symbol_false]⟩
  · right
    by_cases hN : i = e.n
    · left
      refine ⟨h2 _ (by omega), ?_⟩
      simp only [Encoder.encodeDither, Fl.isFinite, ei, if_true, symbol_false]
      rw [if_neg h0, if_pos hN, hN]
    · right
      refine ⟨i - 1, by omega, h2 _ (by omega), ?_, ?_⟩
      · have := h3 (by omega)
        rwa [show i - 1 + 1 = i by omega]
      · simp only [Encoder.encodeDither, Fl.isFinite, ei, if_true, symbol_false]
        rw [if_neg h0, if_neg hN, h.eq i (by omega), h.eq (i - 1) (by omega),
          show i - 1 + 1 = i by omega]
        rfl

/-- **C09**: dithering picks one of the two enclosing levels (or the end level), for every rounding
function — in particular for binary32 arithmetic — and every dither value. -/
theorem dither_neighbour {e : Encoder} {l : Nat → ℚ} (h : Levels e l) (R : ℚ → Fl) (x : ℚ)
    (d : Nat) :
    ∃ s, e.encodeDither R (.fin x) d = some s ∧ s < e.n ∧
      ((x ≤ l 0 ∧ s = 0) ∨ (l (e.n - 1) < x ∧ s = e.n - 1) ∨
        ∃ k, k + 1 < e.n ∧ l k < x ∧ x ≤ l (k + 1) ∧ (s = k ∨ s = k + 1)) := by
  have hn := h.two
  rcases dither_search h R x d with ⟨h1, h2⟩ | ⟨h1, h2⟩ | ⟨k, h1, h2, h3, h4⟩
  · exact ⟨0, h2, by omega, Or.inl ⟨h1, rfl⟩⟩
  · exact ⟨e.n - 1, h2, by omega, Or.inr (Or.inl ⟨h1, rfl⟩)⟩
  · split at h4
    · exact ⟨k + 1, h4, h1, Or.inr (Or.inr ⟨k, h1, h2, h3, Or.inr rfl⟩)⟩
    · exact ⟨k, h4, by omega, Or.inr (Or.inr ⟨k, h1, h2, h3, Or.inl rfl⟩)⟩

/-! ## C07 -/

/-- **C07**: every non-finite value becomes the reserved symbol, with and without dithering, and that
symbol decodes to NaN. -/
theorem nonfinite_reserved {e : Encoder} {l : Nat → ℚ} (h : Levels e l) (R : ℚ → Fl) (v : Fl)
    (hv : ∀ q, v ≠ .fin q) (d : Nat) :
    e.encode v = some (e.quantCount - 1) ∧ e.encodeDither R v d = some (e.quantCount - 1) ∧
      e.decode (e.quantCount - 1) = some .nan := by
  have hf : v.isFinite = false := by
    cases v with
    | fin q => exact absurd rfl (hv q)
    | inf _ => rfl
    | nan => rfl
  refine ⟨by simp [Encoder.encode, hf], by simp [Encoder.encodeDither, hf, Encoder.quantCount], ?_⟩
  simp [Encoder.decode, Encoder.quantCount, h.cap, h.slot]

/-- **C07**: every finite value becomes another symbol, which decodes to a finite level. -/
theorem finite_not_reserved {e : Encoder} {b l : Nat → ℚ} (hb : Boundaries e b) (h : Levels e l)
    (R : ℚ → Fl) {x : ℚ} (hx : x ≤ fltMax) (d : Nat) :
    (∃ s y, e.encode (.fin x) = some s ∧ s < e.quantCount - 1 ∧ e.decode s = some (.fin y)) ∧
    (∃ s y, e.encodeDither R (.fin x) d = some s ∧ s < e.quantCount - 1 ∧
      e.decode s = some (.fin y)) := by
  have hd : ∀ s, s < e.n → e.decode s = some (.fin (l s)) := by
    intro s hs
    rw [Encoder.decode, if_pos (by rw [h.cap]; omega), h.eq s hs]
  constructor
  · obtain ⟨s, r, h1, h2, _⟩ := encode_finite hb hx
    exact ⟨s, l s, h1, h2, hd s (by simpa [Encoder.quantCount] using h2)⟩
  · obtain ⟨s, h1, h2, _⟩ := dither_neighbour h R x d
    exact ⟨s, l s, h1, by simpa [Encoder.quantCount] using h2, hd s h2⟩

/-! ## C12 -/

/-- `G` is strictly increasing strictly between 0 and 1 and gives finite floats there. -/
def Quantile (F : ℚ → Fl) (G : ℚ → ℚ) : Prop :=
  (∀ c, 0 < c → c < 1 → F c = .fin (G c) ∧ |G c| ≤ fltMax) ∧
  ∀ c d, 0 < c → c < d → d < 1 → G c < G d

/-- Fractions of the grid. -/
theorem frac_lt {n : Nat} (hn : 0 < n) {a c : ℚ} (h : a < c) : a / (n : ℚ) < c / (n : ℚ) := by
  have : (0 : ℚ) < n := by exact_mod_cast hn
  exact div_lt_div_of_pos_right h this

theorem frac_pos {n : Nat} (hn : 0 < n) {a : ℚ} (h : 0 < a) : 0 < a / (n : ℚ) := by
  have : (0 : ℚ) < n := by exact_mod_cast hn
  positivity

theorem frac_lt_one {n : Nat} {a : ℚ} (h0 : 0 < n) (h : a < n) : a / (n : ℚ) < 1 := by
  have : (0 : ℚ) < n := by exact_mod_cast h0
  rw [div_lt_one this]
  exact h

/-- The fractions at which the constructors with `q` quantities evaluate the quantile function. -/
def OnGrid (q : Nat) (c : ℚ) : Prop :=
  ∃ j : Nat, 0 < j ∧ j < 2 * (q - 1) ∧ c = j / (2 * ((q - 1 : Nat) : ℚ))

theorem OnGrid.bounds {q : Nat} {c : ℚ} (h : OnGrid q c) : 0 < c ∧ c < 1 := by
  obtain ⟨j, h1, h2, rfl⟩ := h
  have h3 : (0 : ℚ) < j := by exact_mod_cast h1
  have h4 : (j : ℚ) < 2 * ((q - 1 : Nat) : ℚ) := by exact_mod_cast h2
  constructor
  · exact div_pos h3 (lt_trans h3 h4)
  · rw [div_lt_one (lt_trans h3 h4)]
    exact h4

theorem onGrid_level {q j : Nat} (hj : j < q - 1) : OnGrid q ((j + 1 / 2) / ((q - 1 : Nat) : ℚ)) := by
  refine ⟨2 * j + 1, by omega, by omega, ?_⟩
  have : (0 : ℚ) < ((q - 1 : Nat) : ℚ) := by exact_mod_cast (by omega : 0 < q - 1)
  rw [div_eq_div_iff this.ne' (by positivity)]
  push_cast
  ring

theorem onGrid_bound {q j : Nat} (hj : j + 1 < q - 1) : OnGrid q ((j + 1) / ((q - 1 : Nat) : ℚ)) := by
  refine ⟨2 * (j + 1), by omega, by omega, ?_⟩
  have : (0 : ℚ) < ((q - 1 : Nat) : ℚ) := by exact_mod_cast (by omega : 0 < q - 1)
  rw [div_eq_div_iff this.ne' (by positivity)]
  push_cast
  ring

theorem fillLoop_congr (q : Nat) (F F' : ℚ → Fl) (h : ∀ c, OnGrid q c → F c = F' c) :
    ∀ k i f, i + k = q - 1 → fillLoop q F k i f = fillLoop q F' k i f := by
  intro k
  induction k with
  | zero => intro i f _; rfl
  | succ k ih =>
    intro i f hi
    have e : fillStep q F i f = fillStep q F' i f := by
      have h1 := h _ (onGrid_level (q := q) (j := i) (by omega))
      unfold fillStep
      by_cases h0 : i = 0
      · simp only [h0, ne_eq, not_true_eq_false, if_false]
        rw [h0] at h1
        rw [h1]
      · have h2 := h _ (onGrid_bound (q := q) (j := i - 1) (by omega))
        have e2 : ((i - 1 : Nat) : ℚ) + 1 = i := by
          have : i - 1 + 1 = i := by omega
          exact_mod_cast this
        rw [e2] at h2
        rw [h1, h2]
    rw [fillLoop, fillLoop, e]
    cases fillStep q F' i f with
    | none => rfl
    | some g => exact ih (i + 1) g (by omega)

/-- The constructors evaluate the quantile function at the fractions of the grid only. -/
theorem construct_congr {q : Nat} {F F' : ℚ → Fl} (h : ∀ c, OnGrid q c → F c = F' c) (e0 d0 : Nat → Fl) :
    construct q F e0 d0 = construct q F' e0 d0 := by
  unfold construct
  rw [fillLoop_congr q F F' h (q - 1) 0 _ (by omega)]

/-- `G` is strictly increasing on the fractions that are used and gives finite floats there. -/
def QuantileOn (q : Nat) (F : ℚ → Fl) (G : ℚ → ℚ) : Prop :=
  (∀ c, OnGrid q c → F c = .fin (G c) ∧ |G c| ≤ fltMax) ∧
  ∀ c d, OnGrid q c → OnGrid q d → c < d → G c < G d

theorem Quantile.on {F : ℚ → Fl} {G : ℚ → ℚ} (h : Quantile F G) (q : Nat) : QuantileOn q F G :=
  ⟨fun c hc => h.1 c hc.bounds.1 hc.bounds.2,
    fun c d hc hd hcd => h.2 c d hc.bounds.1 hcd hd.bounds.2⟩

/-- **C12** with the quantile function needed only on the grid: for every quantisation count of at least 3
the constructor succeeds without leaving the reserved memory; levels are the quantiles of the
cell midpoints, boundaries the quantiles of the cell ends (the last one the largest float); both
ascend, each level lies inside its own cell and the slot after the last level is NaN. -/
theorem construct_well_formed_on (q : Nat) (hq : 3 ≤ q) (F : ℚ → Fl) (G : ℚ → ℚ) (hG : QuantileOn q F G)
    (e0 d0 : Nat → Fl) :
    ∃ e b l, construct q F e0 d0 = some e ∧ e.quantCount = q ∧ Boundaries e b ∧ Levels e l ∧
      (∀ s, s < q - 1 → l s = G ((s + 1 / 2) / ((q - 1 : Nat) : ℚ))) ∧
      (∀ s, s < q - 2 → b s = G ((s + 1) / ((q - 1 : Nat) : ℚ))) ∧
      (∀ s, s < q - 1 → (0 < s → b (s - 1) < l s) ∧ l s ≤ b s) := by
  obtain ⟨e, e1, e2, e3, e4, e5, e6, e7⟩ := construct_spec q (by omega) F e0 d0
  have hn : 0 < q - 1 := by omega
  set n := q - 1 with hndef
  have hqn : q = n + 1 := by omega
  have lev : ∀ j : Nat, j < n → OnGrid q (((j : ℚ) + 1 / 2) / (n : ℚ)) := fun j hj => onGrid_level hj
  have bou : ∀ j : Nat, j + 1 < n → OnGrid q (((j : ℚ) + 1) / (n : ℚ)) := fun j hj => onGrid_bound hj
  let l : Nat → ℚ := fun s => G ((s + 1 / 2) / (n : ℚ))
  let b : Nat → ℚ := fun s => if s + 1 < n then G ((s + 1) / (n : ℚ)) else fltMax
  have hbl : ∀ j, j + 1 < n → b j = G ((j + 1) / (n : ℚ)) := fun j hj => if_pos hj
  have hblast : b (n - 1) = fltMax := if_neg (by omega)
  refine ⟨e, b, l, e1, by rw [Encoder.quantCount, e2]; omega, ?_, ?_, fun _ _ => rfl, ?_, ?_⟩
  · refine ⟨by omega, ?_, ?_, by rw [e2]; exact hblast⟩
    · intro i hi
      rw [e2] at hi
      by_cases h : i + 1 < n
      · rw [e5 i (by omega), hbl i h, ← (hG.1 _ (bou i h)).1]
        push_cast
        rfl
      · have : i = n - 1 := by omega
        rw [this, hblast, ← e6]
        congr 1
    · intro i j hij hj
      rw [e2] at hj
      by_cases h : j + 1 < n
      · rw [hbl j h, hbl i (by omega)]
        rcases Nat.lt_or_eq_of_le hij with h1 | h1
        · apply le_of_lt
          apply hG.2 _ _ (bou i (by omega)) (bou j h)
          apply frac_lt hn
          have : (i : ℚ) < j := by exact_mod_cast h1
          linarith
        · rw [h1]
      · have : j = n - 1 := by omega
        rw [this, hblast]
        by_cases h2 : i + 1 < n
        · rw [hbl i h2]
          exact le_trans (le_abs_self _) (hG.1 _ (bou i h2)).2
        · have : i = n - 1 := by omega
          rw [this, hblast]
  · refine ⟨by omega, ?_, ?_, by omega, by rw [e2]; exact e7⟩
    · intro i hi
      rw [e2] at hi
      rw [e4 i hi]
      exact (hG.1 _ (lev i hi)).1
    · intro i j hij hj
      rw [e2] at hj
      apply hG.2 _ _ (lev i (by omega)) (lev j hj)
      apply frac_lt hn
      have : (i : ℚ) < j := by exact_mod_cast hij
      linarith
  · intro s hs
    exact hbl s (by omega)
  · intro s hs
    constructor
    · intro h0
      rw [hbl (s - 1) (by omega)]
      apply hG.2 _ _ (bou _ (by omega)) (lev s hs)
      apply frac_lt hn
      have : ((s - 1 : Nat) : ℚ) + 1 = s := by
        have : s - 1 + 1 = s := by omega
        exact_mod_cast this
      linarith
    · by_cases h : s + 1 < n
      · rw [hbl s h]
        apply le_of_lt
        apply hG.2 _ _ (lev s hs) (bou s h)
        apply frac_lt hn
        linarith
      · have : b s = fltMax := if_neg h
        rw [this]
        exact le_trans (le_abs_self _) (hG.1 _ (lev s hs)).2

/-- **C12**: for every quantisation count of at least 3 and every strictly increasing quantile
function the constructor succeeds without leaving the reserved memory; levels are the quantiles of the
cell midpoints, boundaries the quantiles of the cell ends (the last one the largest float); both
ascend, each level lies inside its own cell and the slot after the last level is NaN. -/
theorem construct_well_formed (q : Nat) (hq : 3 ≤ q) (F : ℚ → Fl) (G : ℚ → ℚ) (hG : Quantile F G)
    (e0 d0 : Nat → Fl) :
    ∃ e b l, construct q F e0 d0 = some e ∧ e.quantCount = q ∧ Boundaries e b ∧ Levels e l ∧
      (∀ s, s < q - 1 → l s = G ((s + 1 / 2) / ((q - 1 : Nat) : ℚ))) ∧
      (∀ s, s < q - 2 → b s = G ((s + 1) / ((q - 1 : Nat) : ℚ))) ∧
      (∀ s, s < q - 1 → (0 < s → b (s - 1) < l s) ∧ l s ≤ b s) :=
  construct_well_formed_on q hq F G (hG.on q) e0 d0

/-! ## C08 -/

/-- **C08**: encoding (without dithering) the decoded value of a non-reserved symbol gives the symbol
back, for every constructed table. -/
theorem encode_decode (q : Nat) (hq : 3 ≤ q) (F : ℚ → Fl) (G : ℚ → ℚ) (hG : Quantile F G)
    (e0 d0 : Nat → Fl) :
    ∃ e, construct q F e0 d0 = some e ∧
      ∀ s, s < e.quantCount - 1 → (e.decode s).bind e.encode = some s := by
  obtain ⟨e, b, l, h1, h2, h3, h4, _, _, h7⟩ := construct_well_formed q hq F G hG e0 d0
  refine ⟨e, h1, ?_⟩
  intro s hs
  have hn : s < e.n := by simpa [Encoder.quantCount] using hs
  have hq' : s < q - 1 := by omega
  rw [Encoder.decode, if_pos (by rw [h4.cap]; omega), h4.eq s hn, Option.bind_some,
    encode_iff_cell h3 _ s]
  · exact ⟨hn, h7 s hq'⟩
  · have := h3.asc s (e.n - 1) (by omega) (by omega)
    rw [h3.last] at this
    exact le_trans (h7 s hq').2 this

/-! ## C10 -/

/-- The number behind a decoded float (0 if it is not finite or undefined; the theorem shows that this
does not occur). -/
def valueOf : Option Fl → ℚ
  | some (.fin y) => y
  | _ => 0

/-- Sum over all dither values below `N` of a two-valued choice. -/
theorem sum_choice (N : Nat) (f a c : ℚ) (hf1 : f ≤ 1) :
    ∑ d ∈ Finset.range N, (if (d : ℚ) < N * f then c else a) =
      a * N + (c - a) * (⌈(N : ℚ) * f⌉₊ : ℚ) := by
  have hM : ⌈(N : ℚ) * f⌉₊ ≤ N := by
    rw [Nat.ceil_le]
    have : (0 : ℚ) ≤ N := by positivity
    nlinarith
  set M := ⌈(N : ℚ) * f⌉₊ with hMdef
  have hsplit : ∀ d : Nat, ((d : ℚ) < N * f) ↔ d < M := by
    intro d
    rw [hMdef, Nat.lt_ceil]
  have : ∀ d ∈ Finset.range N, (if (d : ℚ) < N * f then c else a) = a + (if d < M then c - a else 0) := by
    intro d _
    by_cases h : d < M
    · rw [if_pos ((hsplit d).mpr h), if_pos h]; ring
    · rw [if_neg (fun h' => h ((hsplit d).mp h')), if_neg h]; ring
  rw [Finset.sum_congr rfl this, Finset.sum_add_distrib, Finset.sum_const, Finset.card_range,
    ← Finset.sum_filter]
  have hfil : (Finset.range N).filter (fun d => d < M) = Finset.range M := by
    ext d
    simp only [Finset.mem_filter, Finset.mem_range]
    omega
  rw [hfil, Finset.sum_const, Finset.card_range]
  simp only [nsmul_eq_mul]
  ring

/-- **C10**: in exact arithmetic the average of the decoded value over all `2^31` dither values differs
from a value inside the table by less than `2^-31` of the distance between the enclosing levels. -/
theorem dither_unbiased {e : Encoder} {l : Nat → ℚ} (h : Levels e l) (x : ℚ) (hlo : l 0 < x)
    (hhi : x ≤ l (e.n - 1)) :
    ∃ k, k + 1 < e.n ∧ l k < x ∧ x ≤ l (k + 1) ∧
      |(∑ d ∈ Finset.range (2 ^ 31),
          valueOf ((e.encodeDither Fl.exact (.fin x) d).bind e.decode)) / 2 ^ 31 - x|
        < (l (k + 1) - l k) / 2 ^ 31 := by
  have hk : ∃ k, k + 1 < e.n ∧ l k < x ∧ x ≤ l (k + 1) := by
    rcases dither_search h Fl.exact x 0 with ⟨h1, _⟩ | ⟨h1, _⟩ | ⟨k, h1, h2, h3, _⟩
    · linarith
    · linarith
    · exact ⟨k, h1, h2, h3⟩
  obtain ⟨k, k1, k2, k3⟩ := hk
  have hD : 0 < l (k + 1) - l k := by linarith
  have hdec : ∀ s, s < e.n → e.decode s = some (.fin (l s)) := by
    intro s hs
    rw [Encoder.decode, if_pos (by rw [h.cap]; omega), h.eq s hs]
  have hval : ∀ d : Nat, valueOf ((e.encodeDither Fl.exact (.fin x) d).bind e.decode) =
      if (d : ℚ) < ((2 ^ 31 : Nat) : ℚ) * ((x - l k) / (l (k + 1) - l k)) then l (k + 1) else l k := by
    intro d
    rcases dither_search h Fl.exact x d with ⟨h1, _⟩ | ⟨h1, _⟩ | ⟨j, h1, h2, h3, h4⟩
    · linarith
    · linarith
    · have hj : j = k := by
        rcases Nat.lt_trichotomy j k with hlt | heq | hgt
        · have := StrictlyAscending.asc h.asc (j + 1) k hlt (by omega)
          linarith
        · exact heq
        · have := StrictlyAscending.asc h.asc (k + 1) j hgt (by omega)
          linarith
      subst hj
      have hne : l (j + 1) + -(l j) ≠ 0 := by linarith
      have hiff : Fl.lt (Fl.exact d) (Fl.div Fl.exact (Fl.mul Fl.exact (.fin (2 ^ 31))
            (Fl.exact (x + -(l j)))) (Fl.exact (l (j + 1) + -(l j)))) = true ↔
          (d : ℚ) < ((2 ^ 31 : Nat) : ℚ) * ((x - l j) / (l (j + 1) - l j)) := by
        simp only [Fl.exact, Fl.mul, Fl.div, Fl.lt, if_neg hne, decide_eq_true_eq]
        have e : (2 : ℚ) ^ 31 * (x + -l j) / (l (j + 1) + -l j) =
            ((2 ^ 31 : Nat) : ℚ) * ((x - l j) / (l (j + 1) - l j)) := by
          rw [mul_div_assoc, ← sub_eq_add_neg, ← sub_eq_add_neg]
          norm_num
        rw [e]
      rw [h4]
      by_cases hc : (d : ℚ) < ((2 ^ 31 : Nat) : ℚ) * ((x - l j) / (l (j + 1) - l j))
      · rw [if_pos (hiff.mpr hc), if_pos hc, Option.bind_some, hdec _ h1]
        rfl
      · rw [if_neg (fun h' => hc (hiff.mp h')), if_neg hc, Option.bind_some, hdec _ (by omega)]
        rfl
  refine ⟨k, k1, k2, k3, ?_⟩
  rw [Finset.sum_congr rfl (fun d _ => hval d)]
  have hf0 : 0 ≤ (x - l k) / (l (k + 1) - l k) := div_nonneg (by linarith) hD.le
  have hf1 : (x - l k) / (l (k + 1) - l k) ≤ 1 := by
    rw [div_le_one hD]; linarith
  rw [sum_choice (2 ^ 31) _ _ _ hf1]
  generalize hN : (2 ^ 31 : Nat) = N
  have hNpos : (0 : ℚ) < N := by rw [← hN]; positivity
  have hNe : (2 : ℚ) ^ 31 = N := by rw [← hN]; push_cast; rfl
  rw [hNe]
  set D := l (k + 1) - l k with hDdef
  set f := (x - l k) / D with hfdef
  have hfx : x = l k + f * D := by
    rw [hfdef, div_mul_cancel₀ _ hD.ne']; ring
  have c1 := Nat.le_ceil ((N : ℚ) * f)
  have c2 := Nat.ceil_lt_add_one (a := (N : ℚ) * f) (by positivity)
  set M : ℚ := (⌈(N : ℚ) * f⌉₊ : ℚ)
  have e : (l k * N + D * M) / N - x = D * (M - N * f) / N := by
    rw [hfx]
    field_simp
    ring
  rw [e, abs_of_nonneg (div_nonneg (mul_nonneg hD.le (by linarith)) hNpos.le)]
  apply div_lt_div_of_pos_right _ hNpos
  nlinarith

/-! ## C11 -/

/-- Levels are binary32 numbers of moderate size. -/
def FloatLevels (n : Nat) (l : Nat → ℚ) : Prop :=
  ∀ i, i < n → Fl.Repr Fl.binary32 (l i) ∧ |l i| ≤ 2 ^ 90

theorem r32_fin {x : ℚ} (h : |Fl.rnd Fl.binary32 x| < 2 ^ (128 : ℤ)) :
    Fl.r32 x = .fin (Fl.rnd Fl.binary32 x) := by
  unfold Fl.r32 Fl.round
  exact if_pos h

theorem r32_repr {x : ℚ} (hr : Fl.Repr Fl.binary32 x) (h : |x| < 2 ^ (128 : ℤ)) :
    Fl.r32 x = .fin x := by
  have e := Fl.rnd_of_repr (f := Fl.binary32) (by decide) hr
  rw [r32_fin (by rw [e]; exact h), e]

/-- The rounded difference of two different floats is not zero. -/
theorem rnd_sub_ne_zero {a c : ℚ} (ha : Fl.Repr Fl.binary32 a) (hc : Fl.Repr Fl.binary32 c)
    (h : c < a) : (2 : ℚ) ^ (-149 : ℤ) ≤ Fl.rnd Fl.binary32 (a + -c) := by
  have hmul : ∀ q, Fl.Repr Fl.binary32 q → ∃ m : ℤ, q = m * 2 ^ (-149 : ℤ) := by
    rintro q ⟨m, k, hk, _, hq⟩
    have hk' : (-149 : ℤ) ≤ k := hk
    obtain ⟨t, ht⟩ := Int.le.dest hk'
    refine ⟨m * 2 ^ t, ?_⟩
    rw [hq, ← ht, zpow_add₀ (by norm_num), zpow_natCast]
    push_cast
    ring
  obtain ⟨m1, e1⟩ := hmul a ha
  obtain ⟨m2, e2⟩ := hmul c hc
  have hpos := Fl.zp_pos (-149)
  have hlt : m2 < m1 := by
    rw [e1, e2] at h
    have := lt_of_mul_lt_mul_right h hpos.le
    exact_mod_cast this
  have hge : (2 : ℚ) ^ (-149 : ℤ) ≤ a + -c := by
    rw [e1, e2]
    have : ((m2 + 1 : ℤ) : ℚ) ≤ m1 := by exact_mod_cast hlt
    push_cast at this
    nlinarith
  have := Fl.rnd_mono (f := Fl.binary32) (by decide) hge
  rwa [Fl.rnd_of_repr (f := Fl.binary32) (by decide)
    ⟨1, -149, le_refl _, by norm_num [Fl.binary32], by simp⟩] at this

/-- Dither values convert to a float below `2^31` exactly when they are below `2^31 - 64`. -/
theorem r32_dither (d : Nat) (hd : d < 2 ^ 31) :
    ∃ y, Fl.r32 (d : ℚ) = .fin y ∧ (y < 2 ^ 31 ↔ d < 2 ^ 31 - 64) := by
  have h31 : Fl.Repr Fl.binary32 ((2 : ℚ) ^ 31) := ⟨1, 31, by decide, by norm_num [Fl.binary32], by norm_num⟩
  have hr31 := Fl.rnd_of_repr (f := Fl.binary32) (by decide) h31
  have hle : Fl.rnd Fl.binary32 (d : ℚ) ≤ 2 ^ 31 := by
    rw [← hr31]
    apply Fl.rnd_mono (by decide)
    exact_mod_cast hd.le
  have h0 := Fl.rnd_nonneg Fl.binary32 (x := (d : ℚ)) (by positivity)
  have hfin : |Fl.rnd Fl.binary32 (d : ℚ)| < 2 ^ (128 : ℤ) := by
    rw [abs_of_nonneg h0]
    refine lt_of_le_of_lt hle ?_
    norm_num
  refine ⟨_, r32_fin hfin, ?_⟩
  have hulp : ∀ x : ℚ, 2 ^ 30 ≤ x → x < 2 ^ 31 → Fl.ulpExp Fl.binary32 x = 7 := by
    intro x h1 h2
    have hx0 : 0 < x := lt_of_lt_of_le (by norm_num) h1
    have hl : Int.log 2 |x| = 30 := by
      rw [abs_of_pos hx0]
      apply le_antisymm
      · have : Int.log 2 x < 31 := by
          rw [← Int.lt_zpow_iff_log_lt (b := 2) (by norm_num) hx0]
          push_cast
          exact_mod_cast h2
        omega
      · rw [← Int.zpow_le_iff_le_log (b := 2) (by norm_num) hx0]
        push_cast
        exact_mod_cast h1
    unfold Fl.ulpExp
    rw [hl]
    rfl
  constructor
  · intro hlt
    by_contra hc
    have hge : ((2 ^ 31 - 64 : Nat) : ℚ) ≤ d := by
      have : 2 ^ 31 - 64 ≤ d := by omega
      exact_mod_cast this
    have h1 := Fl.rnd_mono (f := Fl.binary32) (by decide) hge
    have h2 : Fl.rnd Fl.binary32 ((2 ^ 31 - 64 : Nat) : ℚ) = 2 ^ 31 := by
      unfold Fl.rnd
      rw [hulp _ (by norm_num) (by norm_num)]
      have : Fl.roundEven (((2 ^ 31 - 64 : Nat) : ℚ) / 2 ^ (7 : ℤ)) = 2 ^ 24 := by
        have e : ((2 ^ 31 - 64 : Nat) : ℚ) / 2 ^ (7 : ℤ) = 16777215 + 1 / 2 := by norm_num
        have hfl : ⌊(16777215 + 1 / 2 : ℚ)⌋ = 16777215 := by
          rw [Int.floor_eq_iff]; norm_num
        rw [e]
        unfold Fl.roundEven
        rw [hfl]
        norm_num
      rw [this]
      norm_num
    linarith
  · intro hlt
    have hge : (d : ℚ) ≤ ((2 ^ 31 - 65 : Nat) : ℚ) := by
      have : d ≤ 2 ^ 31 - 65 := by omega
      exact_mod_cast this
    have h1 := Fl.rnd_mono (f := Fl.binary32) (by decide) hge
    have h2 : Fl.rnd Fl.binary32 ((2 ^ 31 - 65 : Nat) : ℚ) = 2 ^ 31 - 128 := by
      unfold Fl.rnd
      rw [hulp _ (by norm_num) (by norm_num)]
      have : Fl.roundEven (((2 ^ 31 - 65 : Nat) : ℚ) / 2 ^ (7 : ℤ)) = 16777215 := by
        apply Fl.roundEven_eq_of_lt <;> norm_num
      rw [this]
      norm_num
    linarith

/-- **C11**: which symbol a value equal to level `s` gets, in binary32 arithmetic: its own, except that
the 64 largest of the `2^31` dither values send it to the level below. -/
theorem dither_level_exact {e : Encoder} {l : Nat → ℚ} (h : Levels e l) (hf : FloatLevels e.n l)
    (s : Nat) (hs : s < e.n) (d : Nat) (hd : d < 2 ^ 31) :
    e.encodeDither Fl.r32 (.fin (l s)) d =
      some (if s = 0 ∨ d < 2 ^ 31 - 64 then s else s - 1) := by
  rcases dither_search h Fl.r32 (l s) d with ⟨h1, h2⟩ | ⟨h1, h2⟩ | ⟨k, h1, h2, h3, h4⟩
  · have : s = 0 := by
      by_contra hc
      have := h.asc 0 s (by omega) hs
      linarith
    rw [h2, this, if_pos (Or.inl rfl)]
  · have := StrictlyAscending.asc h.asc s (e.n - 1) (by omega) (by omega)
    linarith
  · have hk : s = k + 1 := by
      rcases Nat.lt_trichotomy s (k + 1) with hlt | heq | hgt
      · have := StrictlyAscending.asc h.asc s k (by omega) (by omega)
        linarith
      · exact heq
      · have := h.asc (k + 1) s hgt hs
        linarith
    subst hk
    obtain ⟨ra, ba⟩ := hf (k + 1) hs
    obtain ⟨rb, bb⟩ := hf k (by omega)
    have hD := rnd_sub_ne_zero ra rb h2
    have hDpos : 0 < Fl.rnd Fl.binary32 (l (k + 1) + -l k) := lt_of_lt_of_le (Fl.zp_pos _) hD
    have hDle : Fl.rnd Fl.binary32 (l (k + 1) + -l k) ≤ 2 ^ (91 : ℤ) := by
      have hr : Fl.Repr Fl.binary32 ((2 : ℚ) ^ (91 : ℤ)) :=
        ⟨1, 91, by decide, by norm_num [Fl.binary32], by norm_num⟩
      rw [← Fl.rnd_of_repr (f := Fl.binary32) (by decide) hr]
      apply Fl.rnd_mono (by decide)
      rw [abs_le] at ba bb
      have : (2 : ℚ) ^ (91 : ℤ) = 2 ^ 90 + 2 ^ 90 := by norm_num
      rw [this]
      linarith [ba.2, bb.1]
    have hlt128 : (2 : ℚ) ^ (91 : ℤ) < 2 ^ (128 : ℤ) := zpow_lt_zpow_right₀ (by norm_num) (by norm_num)
    have eD : Fl.r32 (l (k + 1) + -l k) = .fin (Fl.rnd Fl.binary32 (l (k + 1) + -l k)) :=
      r32_fin (by rw [abs_of_pos hDpos]; linarith)
    have rD := Fl.repr_rnd Fl.binary32 (l (k + 1) + -l k)
    set D := Fl.rnd Fl.binary32 (l (k + 1) + -l k) with hDdef
    have rP : Fl.Repr Fl.binary32 ((2 : ℚ) ^ 31 * D) := by
      obtain ⟨m, t, t1, t2, t3⟩ := rD
      refine ⟨m, t + 31, by omega, t2, ?_⟩
      rw [t3, zpow_add₀ (by norm_num)]
      have : (2 : ℚ) ^ (31 : ℤ) = 2 ^ 31 := by norm_num
      rw [this]
      ring
    have eP : Fl.r32 ((2 : ℚ) ^ 31 * D) = .fin (2 ^ 31 * D) := by
      apply r32_repr rP
      rw [abs_of_pos (by positivity)]
      have e1 : (2 : ℚ) ^ (128 : ℤ) = 2 ^ 31 * 2 ^ (97 : ℤ) := by norm_num
      have e2 : (2 : ℚ) ^ (91 : ℤ) < 2 ^ (97 : ℤ) := zpow_lt_zpow_right₀ (by norm_num) (by norm_num)
      rw [e1]
      apply mul_lt_mul_of_pos_left _ (by norm_num)
      linarith
    have eQ : Fl.r32 ((2 : ℚ) ^ 31 * D / D) = .fin (2 ^ 31) := by
      rw [mul_div_cancel_right₀ _ hDpos.ne']
      apply r32_repr ⟨1, 31, by decide, by norm_num [Fl.binary32], by norm_num⟩
      norm_num
    obtain ⟨y, ey, hy⟩ := r32_dither d hd
    have hcond : Fl.lt (Fl.r32 d) (Fl.div Fl.r32 (Fl.mul Fl.r32 (.fin (2 ^ 31))
        (Fl.r32 (l (k + 1) + -(l k)))) (Fl.r32 (l (k + 1) + -(l k)))) = decide (d < 2 ^ 31 - 64) := by
      rw [eD]
      simp only [Fl.mul, eP, Fl.div, if_neg hDpos.ne', eQ, ey, Fl.lt]
      exact decide_eq_decide.mpr hy
    rw [h4, hcond]
    by_cases hc : d < 2 ^ 31 - 64
    · rw [if_pos (decide_eq_true hc), if_pos (Or.inr hc)]
    · have : ¬ (decide (d < 2 ^ 31 - 64) = true) := by simpa using hc
      rw [if_neg this, if_neg (by omega)]
      rfl

/-- **C11**, the part that holds. Missing: the 64 largest dither values, see
`dither_level_not_stable`. -/
theorem dither_level_stable_partial {e : Encoder} {l : Nat → ℚ} (h : Levels e l)
    (hf : FloatLevels e.n l) (s : Nat) (hs : s < e.n) (d : Nat) (hd : d < 2 ^ 31 - 64) :
    e.encodeDither Fl.r32 (.fin (l s)) d = some s := by
  rw [dither_level_exact h hf s hs d (by omega), if_pos (Or.inr hd)]

/-- **C11** is violated: every table, every level but the lowest, every one of the 64 largest dither
values changes the level. -/
theorem dither_level_not_stable {e : Encoder} {l : Nat → ℚ} (h : Levels e l)
    (hf : FloatLevels e.n l) (s : Nat) (h0 : 0 < s) (hs : s < e.n) (d : Nat)
    (hd : 2 ^ 31 - 64 ≤ d) (hd2 : d < 2 ^ 31) :
    e.encodeDither Fl.r32 (.fin (l s)) d = some (s - 1) := by
  rw [dither_level_exact h hf s hs d hd2, if_neg (by omega)]

/-- **C11** in exact arithmetic the level is stable for every dither value the generator can give. -/
theorem dither_level_stable_exact_arith {e : Encoder} {l : Nat → ℚ} (h : Levels e l)
    (s : Nat) (hs : s < e.n) (d : Nat) (hd : d < 2 ^ 31) :
    e.encodeDither Fl.exact (.fin (l s)) d = some s := by
  rcases dither_search h Fl.exact (l s) d with ⟨h1, h2⟩ | ⟨h1, h2⟩ | ⟨k, h1, h2, h3, h4⟩
  · have : s = 0 := by
      by_contra hc
      have := h.asc 0 s (by omega) hs
      linarith
    rw [h2, this]
  · have := StrictlyAscending.asc h.asc s (e.n - 1) (by omega) (by omega)
    linarith
  · have hk : s = k + 1 := by
      rcases Nat.lt_trichotomy s (k + 1) with hlt | heq | hgt
      · have := StrictlyAscending.asc h.asc s k (by omega) (by omega)
        linarith
      · exact heq
      · have := h.asc (k + 1) s hgt hs
        linarith
    subst hk
    have hne : l (k + 1) + -(l k) ≠ 0 := by linarith
    rw [h4]
    apply if_pos
    simp only [Fl.exact, Fl.mul, Fl.div, if_neg hne, Fl.lt, decide_eq_true_eq]
    rw [mul_div_cancel_right₀ _ hne]
    exact_mod_cast hd

/-! ## C13 -/

theorem uniform_quantile {sd : ℚ} (h0 : 0 < sd) (h1 : sd ≤ fltMax) :
    Quantile (uniformF sd) (fun c => sd * (-1 + 2 * c)) := by
  constructor
  · intro c c0 c1
    refine ⟨rfl, ?_⟩
    rw [abs_mul, abs_of_pos h0]
    have : |-1 + 2 * c| ≤ 1 := by rw [abs_le]; constructor <;> linarith
    nlinarith [abs_nonneg (-1 + 2 * c)]
  · intro c d _ hcd _
    apply mul_lt_mul_of_pos_left _ h0
    linarith

/-- **C13**: the uniform encoder picks the level nearest to the value, so the error is at most half a
step for values in the covered range `[-sd, sd]`, and values outside go to the end level. -/
theorem uniform_nearest (q : Nat) (hq : 3 ≤ q) (sd : ℚ) (h0 : 0 < sd) (h1 : sd ≤ fltMax)
    (e0 d0 : Nat → Fl) :
    ∃ e, construct q (uniformF sd) e0 d0 = some e ∧ ∀ x, x ≤ fltMax →
      ∃ s y, e.encode (.fin x) = some s ∧ e.decode s = some (.fin y) ∧
        (∀ t z, e.decode t = some (.fin z) → |x - y| ≤ |x - z|) ∧
        (|x| ≤ sd → |x - y| ≤ (2 * sd / ((q - 1 : Nat) : ℚ)) / 2) := by
  obtain ⟨e, b, l, c1, c2, c3, c4, c5, c6, c7⟩ :=
    construct_well_formed q hq _ _ (uniform_quantile h0 h1) e0 d0
  refine ⟨e, c1, ?_⟩
  intro x hx
  obtain ⟨s, r, s1, s2, _⟩ := encode_finite c3 hx
  obtain ⟨t1, t2, t3⟩ := (encode_iff_cell c3 hx s).mp s1
  have hn : e.n = q - 1 := by rw [Encoder.quantCount] at c2; omega
  have hnpos : (0 : ℚ) < ((q - 1 : Nat) : ℚ) := by
    have : 0 < q - 1 := by omega
    exact_mod_cast this
  have hl : ∀ t, t < q - 1 → l t = -sd + (2 * t + 1) * (sd / ((q - 1 : Nat) : ℚ)) := by
    intro t ht
    rw [c5 t ht]
    field_simp
  have hb : ∀ t, t < q - 2 → b t = -sd + (2 * t + 2) * (sd / ((q - 1 : Nat) : ℚ)) := by
    intro t ht
    rw [c6 t ht]
    field_simp
  set w := sd / ((q - 1 : Nat) : ℚ) with hw
  have hwpos : 0 < w := by positivity
  have hsd : sd = ((q - 1 : Nat) : ℚ) * w := by rw [hw]; field_simp
  have hs : s < q - 1 := by omega
  have hup : s < q - 2 → x ≤ l s + w := by
    intro h
    rw [hb s h] at t3
    rw [hl s hs]
    linarith
  have hlo : 0 < s → l s - w < x := by
    intro h
    have := t2 h
    rw [hb (s - 1) (by omega)] at this
    rw [hl s hs]
    have e : ((s - 1 : Nat) : ℚ) = s - 1 := by
      rw [Nat.cast_sub (by omega)]; norm_num
    rw [e] at this
    linarith
  have hstep : ∀ t, t < q - 1 → l t - l s = 2 * ((t : ℚ) - s) * w := by
    intro t ht
    rw [hl t ht, hl s hs]; ring
  refine ⟨s, l s, s1, ?_, ?_, ?_⟩
  · rw [Encoder.decode, if_pos (by rw [c4.cap]; omega), c4.eq s t1]
  · intro t z htz
    rw [Encoder.decode] at htz
    split at htz
    · rename_i htc
      rw [c4.cap] at htc
      have htn : t < e.n := by
        by_contra hc
        have : t = e.n := by omega
        rw [this, c4.slot] at htz
        simp at htz
      rw [c4.eq t htn] at htz
      obtain rfl : l t = z := by simpa using htz
      have hst := hstep t (by omega)
      rcases Nat.lt_trichotomy t s with hlt | heq | hgt
      · have g : ((t : ℚ)) + 1 ≤ s := by exact_mod_cast hlt
        have := hlo (by omega)
        have h3 : l t ≤ l s - 2 * w := by nlinarith
        rw [abs_of_pos (show 0 < x - l t by linarith)]
        rw [abs_le]
        constructor <;> linarith
      · rw [heq]
      · have g : ((s : ℚ)) + 1 ≤ t := by exact_mod_cast hgt
        have := hup (by omega)
        have h3 : l s + 2 * w ≤ l t := by nlinarith
        rw [abs_of_neg (show x - l t < 0 by linarith)]
        rw [abs_le]
        constructor <;> linarith
    · simp at htz
  · intro hxs
    have e2 : 2 * sd / ((q - 1 : Nat) : ℚ) / 2 = w := by rw [hw]; ring
    rw [e2]
    rw [abs_le] at hxs ⊢
    constructor
    · by_cases h : 0 < s
      · have := hlo h; linarith
      · have : s = 0 := by omega
        rw [hl s hs, this]
        push_cast
        linarith [hxs.1]
    · by_cases h : s < q - 2
      · have := hup h; linarith
      · have e3 : s = q - 2 := by omega
        have e4 : ((q - 1 : Nat) : ℚ) = (s : ℚ) + 1 := by
          have : q - 1 = s + 1 := by omega
          rw [this]; push_cast; rfl
        rw [e4] at hsd
        rw [hl s hs]
        nlinarith [hxs.2]

/-- **C13**, dithered: the error is below one step for every value in the covered range, every dither
value and every rounding function. -/
theorem uniform_dither_step (q : Nat) (hq : 3 ≤ q) (sd : ℚ) (h0 : 0 < sd) (h1 : sd ≤ fltMax)
    (e0 d0 : Nat → Fl) :
    ∃ e, construct q (uniformF sd) e0 d0 = some e ∧ ∀ R x d, |x| ≤ sd →
      ∃ s y, e.encodeDither R (.fin x) d = some s ∧ e.decode s = some (.fin y) ∧
        |x - y| ≤ 2 * sd / ((q - 1 : Nat) : ℚ) := by
  obtain ⟨e, b, l, c1, c2, c3, c4, c5, c6, c7⟩ :=
    construct_well_formed q hq _ _ (uniform_quantile h0 h1) e0 d0
  refine ⟨e, c1, ?_⟩
  intro R x d hxs
  obtain ⟨s, s1, s2, s3⟩ := dither_neighbour c4 R x d
  have hn : e.n = q - 1 := by rw [Encoder.quantCount] at c2; omega
  have hnpos : (0 : ℚ) < ((q - 1 : Nat) : ℚ) := by
    have : 0 < q - 1 := by omega
    exact_mod_cast this
  have hl : ∀ t, t < q - 1 → l t = -sd + (2 * t + 1) * (sd / ((q - 1 : Nat) : ℚ)) := by
    intro t ht
    rw [c5 t ht]
    field_simp
  have e2 : 2 * sd / ((q - 1 : Nat) : ℚ) = 2 * (sd / ((q - 1 : Nat) : ℚ)) := by ring
  rw [e2]
  set w := sd / ((q - 1 : Nat) : ℚ) with hw
  have hwpos : 0 < w := by positivity
  have hsd : sd = ((q - 1 : Nat) : ℚ) * w := by rw [hw]; field_simp
  refine ⟨s, l s, s1, ?_, ?_⟩
  · rw [Encoder.decode, if_pos (by rw [c4.cap]; omega), c4.eq s s2]
  · rw [abs_le] at hxs ⊢
    rcases s3 with ⟨a1, a2⟩ | ⟨a1, a2⟩ | ⟨k, a1, a2, a3, a4⟩
    · subst a2
      have := hl 0 (by omega)
      push_cast at this
      constructor <;> linarith [hxs.1]
    · subst a2
      have e4 : ((q - 1 : Nat) : ℚ) = ((e.n - 1 : Nat) : ℚ) + 1 := by
        have : q - 1 = e.n - 1 + 1 := by omega
        rw [this]; push_cast; rfl
      rw [e4] at hsd
      have := hl (e.n - 1) (by omega)
      constructor <;> nlinarith [hxs.2]
    · have g1 := hl k (by omega)
      have g2 := hl (k + 1) (by omega)
      push_cast at g2
      have g3 : l (k + 1) - l k = 2 * w := by rw [g1, g2]; ring
      rcases a4 with rfl | rfl <;> constructor <;> linarith

/-! ## Non-vacuity -/

/-- The hypotheses above are met by the 2-bit uniform encoder (3 levels). -/
example : ∃ e b l, construct 4 (uniformF 1) (fun _ => .nan) (fun _ => .nan) = some e ∧
    Boundaries e b ∧ Levels e l ∧ e.n = 3 ∧ l 1 = 0 ∧ l 2 = 2 / 3 ∧ b 0 = -1 / 3 := by
  obtain ⟨e, b, l, c1, c2, c3, c4, c5, c6, c7⟩ :=
    construct_well_formed 4 (by norm_num) _ _
      (uniform_quantile (sd := 1) (by norm_num) (by norm_num [fltMax]))
      (fun _ => .nan) (fun _ => .nan)
  refine ⟨e, b, l, c1, c3, c4, by rw [Encoder.quantCount] at c2; omega, ?_, ?_, ?_⟩
  · rw [c5 1 (by norm_num)]; norm_num
  · rw [c5 2 (by norm_num)]; norm_num
  · rw [c6 0 (by norm_num)]; norm_num

/-- Two float levels: `FloatLevels` is satisfiable, and value `1` with dither value `2^31 - 1` is
encoded to the level of value `-1`. -/
example : ∃ (e : Encoder) (l : Nat → ℚ), Levels e l ∧ FloatLevels e.n l ∧ l 1 = 1 ∧ l 0 = -1 ∧
    e.encodeDither Fl.r32 (.fin 1) (2 ^ 31 - 1) = some 0 ∧
    e.encodeDither Fl.r32 (.fin 1) 5 = some 1 := by
  let l : Nat → ℚ := fun i => if i = 0 then -1 else 1
  let e : Encoder := ⟨2, fun _ => .fin fltMax, fun i => if i < 2 then .fin (l i) else .nan, 3⟩
  have hL : Levels e l := by
    refine ⟨Nat.le_refl 2, ?_, ?_, rfl, rfl⟩
    · intro i hi
      exact if_pos hi
    · intro i j hij hj
      have hj2 : j < 2 := hj
      have h1 : i = 0 := by omega
      have h2 : j = 1 := by omega
      subst h1; subst h2
      norm_num [l]
  have hF : FloatLevels e.n l := by
    intro i _
    by_cases h : i = 0
    · subst h
      exact ⟨⟨-1, 0, by decide, by norm_num [Fl.binary32], by norm_num [l]⟩, by norm_num [l]⟩
    · exact ⟨⟨1, 0, by decide, by norm_num [Fl.binary32], by simp [l, h]⟩, by simp [l, h]; norm_num⟩
  refine ⟨e, l, hL, hF, rfl, rfl, ?_, ?_⟩
  · exact dither_level_not_stable hL hF 1 (by norm_num) (Nat.lt_succ_self 1) _ (by norm_num) (by norm_num)
  · exact dither_level_stable_partial hL hF 1 (Nat.lt_succ_self 1) _ (by norm_num)

end Dysco.Stochastic
