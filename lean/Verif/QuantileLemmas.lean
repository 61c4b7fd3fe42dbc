import Verif.QuantileModel
import Verif.FlLemmas
import Mathlib.Tactic.Linarith
import Mathlib.Tactic.Ring
import Mathlib.Data.Real.Basic

/-!
# Lemmas about the bisection
-/

namespace Dysco.Quantile

/-- What the termination proof needs of the arithmetic: a set of representable numbers, all multiples of
one positive unit, closed under doubling; rounding goes monotonically to that set and keeps its members. -/
structure Arith (R : ℚ → ℚ) (G : ℚ → Prop) (u : ℚ) : Prop where
  pos : 0 < u
  unit : ∀ x, G x → ∃ k : ℤ, x = k * u
  zero : G 0
  half : G (1 / 2)
  double : ∀ x, G x → G (x * 2)
  into : ∀ x, G (R x)
  fix : ∀ x, G x → R x = x
  mono : ∀ x y, x ≤ y → R x ≤ R y

theorem Arith.one {R : ℚ → ℚ} {G : ℚ → Prop} {u : ℚ} (h : Arith R G u) : G 1 := by
  have := h.double _ h.half
  norm_num at this
  exact this

theorem Arith.mid_mem {R : ℚ → ℚ} {G : ℚ → Prop} {u : ℚ} (h : Arith R G u) {lo hi : ℚ} (hl : G lo)
    (hh : G hi) (hle : lo ≤ hi) : lo ≤ mid R lo hi ∧ mid R lo hi ≤ hi ∧ G (mid R lo hi) := by
  have h1 : lo * 2 ≤ R (lo + hi) := by
    have := h.mono (lo * 2) (lo + hi) (by linarith)
    rwa [h.fix _ (h.double _ hl)] at this
  have h2 : R (lo + hi) ≤ hi * 2 := by
    have := h.mono (lo + hi) (hi * 2) (by linarith)
    rwa [h.fix _ (h.double _ hh)] at this
  refine ⟨?_, ?_, h.into _⟩
  · have := h.mono lo (R (lo + hi) * (1 / 2)) (by linarith)
    rwa [h.fix _ hl] at this
  · have := h.mono (R (lo + hi) * (1 / 2)) hi (by linarith)
    rwa [h.fix _ hh] at this

/-- More fuel does not change a result. -/
theorem bisect_mono (R P : ℚ → ℚ) (c err : ℚ) : ∀ k lo hi e nc y,
    bisect R P c err k lo hi e nc = some y → ∀ k', k ≤ k' → bisect R P c err k' lo hi e nc = some y := by
  intro k
  induction k with
  | zero => intro lo hi e nc y h; simp [bisect] at h
  | succ k ih =>
    intro lo hi e nc y h k' hk
    obtain ⟨j, rfl⟩ : ∃ j, k' = j + 1 := ⟨k' - 1, by omega⟩
    rw [bisect] at h ⊢
    split_ifs at h ⊢ <;> first | exact h | exact ih _ _ _ _ _ h _ (by omega)

theorem grow_mono (P : ℚ → ℚ) (c : ℚ) : ∀ k x y, grow P c k x = some y → ∀ k', k ≤ k' →
    grow P c k' x = some y := by
  intro k
  induction k with
  | zero => intro x y h; simp [grow] at h
  | succ k ih =>
    intro x y h k' hk
    obtain ⟨j, rfl⟩ : ∃ j, k' = j + 1 := ⟨k' - 1, by omega⟩
    rw [grow] at h ⊢
    split_ifs at h ⊢
    · exact ih _ _ h _ (by omega)
    · exact h

/-- One iteration that does not return. -/
theorem bisect_step (R P : ℚ → ℚ) (c err : ℚ) (k : Nat) (lo hi e : ℚ) (nc : Nat)
    (hn1 : ¬ (cur R P c (mid R lo hi) ≥ e ∧ nc + 1 > 10)) (hn2 : cur R P c (mid R lo hi) > err) :
    bisect R P c err (k + 1) lo hi e nc =
      bisect R P c err k (if P (mid R lo hi) > c then lo else mid R lo hi)
        (if P (mid R lo hi) > c then mid R lo hi else hi) (cur R P c (mid R lo hi))
        (if cur R P c (mid R lo hi) ≥ e then nc + 1 else 0) := by
  rw [bisect]
  rw [if_neg hn1, if_pos hn2]

/-- One iteration that returns. -/
theorem bisect_return (R P : ℚ → ℚ) (c err : ℚ) (k : Nat) (lo hi e : ℚ) (nc : Nat)
    (h : (cur R P c (mid R lo hi) ≥ e ∧ nc + 1 > 10) ∨ ¬ cur R P c (mid R lo hi) > err) :
    bisect R P c err (k + 1) lo hi e nc = some (mid R lo hi) := by
  rw [bisect]
  rcases h with h | h
  · rw [if_pos h]
  · rw [if_neg h]
    split_ifs <;> rfl

/-- When the midpoint stays at a point that leaves the interval as it is, the counter ends the loop. -/
theorem bisect_stuck (R P : ℚ → ℚ) (c err lo hi : ℚ)
    (hs : (P (mid R lo hi) > c ∧ mid R lo hi = hi) ∨ (¬ P (mid R lo hi) > c ∧ mid R lo hi = lo)) :
    ∀ n nc, nc + n = 11 → ∃ y, bisect R P c err (n + 1) lo hi (cur R P c (mid R lo hi)) nc = some y := by
  intro n
  induction n with
  | zero =>
    intro nc hn
    exact ⟨_, bisect_return _ _ _ _ _ _ _ _ _ (Or.inl ⟨le_refl _, by omega⟩)⟩
  | succ n ih =>
    intro nc hn
    by_cases h1 : cur R P c (mid R lo hi) > err
    · by_cases h2 : nc + 1 > 10
      · exact ⟨_, bisect_return _ _ _ _ _ _ _ _ _ (Or.inl ⟨le_refl _, h2⟩)⟩
      · rw [bisect_step _ _ _ _ _ _ _ _ _ (fun h => h2 h.2) h1, if_pos (le_refl _)]
        obtain ⟨y, hy⟩ := ih (nc + 1) (by omega)
        refine ⟨y, ?_⟩
        rcases hs with ⟨ha, hb⟩ | ⟨ha, hb⟩
        · rw [if_pos ha, if_pos ha]
          conv_lhs => arg 7; rw [hb]
          exact hy
        · rw [if_neg ha, if_neg ha]
          conv_lhs => arg 6; rw [hb]
          exact hy
    · exact ⟨_, bisect_return _ _ _ _ _ _ _ _ _ (Or.inr h1)⟩

/-- The bisection ends, whatever the function `P` is. -/
theorem bisect_ends {R : ℚ → ℚ} {G : ℚ → Prop} {u : ℚ} (h : Arith R G u) (P : ℚ → ℚ) (c err : ℚ) :
    ∀ (n : Nat) lo hi e nc, G lo → G hi → lo ≤ hi → hi - lo ≤ n * u → nc ≤ 10 →
      P lo ≤ c → c ≤ P hi → ∃ k y, bisect R P c err k lo hi e nc = some y := by
  intro n
  induction n using Nat.strong_induction_on with
  | _ n ih =>
    intro lo hi e nc hl hh hle hw hnc hpl hph
    obtain ⟨m1, m2, m3⟩ := h.mid_mem hl hh hle
    by_cases hend : (cur R P c (mid R lo hi) ≥ e ∧ nc + 1 > 10) ∨ ¬ cur R P c (mid R lo hi) > err
    · exact ⟨1, _, bisect_return _ _ _ _ 0 _ _ _ _ hend⟩
    · obtain ⟨hn1, hn2⟩ := not_or.mp hend
      rw [not_not] at hn2
      have hstep := fun k => bisect_step R P c err k lo hi e nc hn1 hn2
      have hnc' : (if cur R P c (mid R lo hi) ≥ e then nc + 1 else 0) ≤ 10 := by
        split_ifs with h1
        · by_contra hc
          exact hn1 ⟨h1, by omega⟩
        · omega
      -- strictly smaller interval, or stuck
      have small : ∀ lo' hi', G lo' → G hi' → lo' ≤ hi' → hi' - lo' < hi - lo → P lo' ≤ c → c ≤ P hi' →
          ∃ k y, bisect R P c err k lo' hi' (cur R P c (mid R lo hi))
            (if cur R P c (mid R lo hi) ≥ e then nc + 1 else 0) = some y := by
        intro lo' hi' g1 g2 g3 g4 g5 g6
        obtain ⟨a, ha⟩ := h.unit _ g1
        obtain ⟨b, hb⟩ := h.unit _ g2
        have hpos := h.pos
        have h0 : (a : ℚ) ≤ b := by
          rw [ha, hb] at g3
          exact le_of_mul_le_mul_right g3 hpos
        have hab : a ≤ b := by exact_mod_cast h0
        have hlt : ((b - a : ℤ) : ℚ) < n := by
          have : ((b : ℚ) - a) * u < n * u := by rw [sub_mul, ← ha, ← hb]; linarith
          have := lt_of_mul_lt_mul_right this hpos.le
          push_cast
          exact this
        have hlt' : b - a < n := by exact_mod_cast hlt
        refine ih (b - a).toNat (by omega) lo' hi' _ _ g1 g2 g3 ?_ hnc' g5 g6
        have e1 : (((b - a).toNat : ℕ) : ℚ) = (b : ℚ) - a := by
          have : ((b - a).toNat : ℤ) = b - a := Int.toNat_of_nonneg (by omega)
          have h2 : (((b - a).toNat : ℤ) : ℚ) = ((b - a : ℤ) : ℚ) := by rw [this]
          push_cast at h2
          exact_mod_cast h2
        rw [e1, ha, hb]
        linarith
      by_cases hgt : P (mid R lo hi) > c
      · by_cases heq : mid R lo hi = hi
        · obtain ⟨y, hy⟩ := bisect_stuck R P c err lo hi (Or.inl ⟨hgt, heq⟩)
            (11 - (if cur R P c (mid R lo hi) ≥ e then nc + 1 else 0))
            (if cur R P c (mid R lo hi) ≥ e then nc + 1 else 0) (by omega)
          refine ⟨11 - (if cur R P c (mid R lo hi) ≥ e then nc + 1 else 0) + 1 + 1, y, ?_⟩
          rw [hstep, if_pos hgt, if_pos hgt]
          conv_lhs => arg 7; rw [heq]
          exact hy
        · have hlt : mid R lo hi < hi := lt_of_le_of_ne m2 heq
          obtain ⟨k, y, hy⟩ := small lo (mid R lo hi) hl m3 m1 (by linarith) hpl hgt.le
          exact ⟨k + 1, y, by rw [hstep, if_pos hgt, if_pos hgt]; exact hy⟩
      · by_cases heq : mid R lo hi = lo
        · obtain ⟨y, hy⟩ := bisect_stuck R P c err lo hi (Or.inr ⟨hgt, heq⟩)
            (11 - (if cur R P c (mid R lo hi) ≥ e then nc + 1 else 0))
            (if cur R P c (mid R lo hi) ≥ e then nc + 1 else 0) (by omega)
          refine ⟨11 - (if cur R P c (mid R lo hi) ≥ e then nc + 1 else 0) + 1 + 1, y, ?_⟩
          rw [hstep, if_neg hgt, if_neg hgt]
          conv_lhs => arg 6; rw [heq]
          exact hy
        · have hlt : lo < mid R lo hi := lt_of_le_of_ne m1 (Ne.symm heq)
          obtain ⟨k, y, hy⟩ := small (mid R lo hi) hi m3 hh m2 (by linarith) (not_lt.mp hgt) hph
          exact ⟨k + 1, y, by rw [hstep, if_neg hgt, if_neg hgt]; exact hy⟩

/-- The doubling loop ends at the first power of two that is high enough. -/
theorem grow_ends (P : ℚ → ℚ) (c : ℚ) : ∀ (n : Nat) x, c ≤ P (x * 2 ^ (n + 1)) →
    ∃ j, j ≤ n ∧ grow P c (n + 1) x = some (x * 2 ^ (j + 1)) ∧ c ≤ P (x * 2 ^ (j + 1)) ∧
      ∀ i, i < j → P (x * 2 ^ (i + 1)) < c := by
  intro n
  induction n with
  | zero =>
    intro x h
    refine ⟨0, le_refl _, ?_, h, fun i hi => absurd hi (Nat.not_lt_zero _)⟩
    rw [grow, if_neg (by simpa using h)]
    simp
  | succ n ih =>
    intro x h
    rw [grow]
    split_ifs with h1
    · obtain ⟨j, h2, h3, h4, h5⟩ := ih (x * 2) (by rw [pow_succ'] at h; simpa [mul_assoc] using h)
      refine ⟨j + 1, by omega, ?_, ?_, ?_⟩
      · rw [h3, pow_succ' 2 (j + 1), mul_assoc]
      · rw [pow_succ' 2 (j + 1), ← mul_assoc]
        exact h4
      · intro i hi
        cases i with
        | zero => simpa using h1
        | succ i =>
          rw [pow_succ' 2 (i + 1), ← mul_assoc]
          exact h5 i (by omega)
    · refine ⟨0, by omega, by simp, ?_, fun i hi => absurd hi (Nat.not_lt_zero _)⟩
      simpa using h1

/-- `P` is computed with error at most `δ` from a function `Φ` that on `[A, B]` has slopes between `m` and
`L`; midpoints are computed with error at most `ρ`. -/
structure Approx (R P : ℚ → ℚ) (Φ : ℚ → ℝ) (c A B : ℚ) (δ m L ρ : ℝ) : Prop where
  mpos : 0 < m
  value : ∀ x, A ≤ x → x ≤ B → |(P x : ℝ) - Φ x| ≤ δ
  error : ∀ x, A ≤ x → x ≤ B → |(cur R P c x : ℝ) - abs (Φ x - c)| ≤ δ
  low : ∀ x y, A ≤ x → x ≤ y → y ≤ B → m * ((y : ℝ) - x) ≤ Φ y - Φ x
  high : ∀ x y, A ≤ x → x ≤ y → y ≤ B → Φ y - Φ x ≤ L * ((y : ℝ) - x)
  middle : ∀ lo hi, A ≤ lo → lo ≤ hi → hi ≤ B → |(mid R lo hi : ℝ) - ((lo : ℝ) + hi) / 2| ≤ ρ

section accuracy

variable {R P : ℚ → ℚ} {Φ : ℚ → ℝ} {c A B : ℚ} {δ m L ρ : ℝ}

theorem Approx.delta (h : Approx R P Φ c A B δ m L ρ) {x : ℚ} (h1 : A ≤ x) (h2 : x ≤ B) : 0 ≤ δ :=
  le_trans (abs_nonneg _) (h.value x h1 h2)

/-- Two points below the target with non-decreasing error are close. -/
theorem Approx.close_low (h : Approx R P Φ c A B δ m L ρ) {x y : ℚ} (hx : A ≤ x) (hxy : x ≤ y)
    (hy : y ≤ B) (hp : P y ≤ c) (he : cur R P c x ≤ cur R P c y) : m * ((y : ℝ) - x) ≤ 4 * δ := by
  have h1 := abs_le.mp (h.value y (le_trans hx hxy) hy)
  have h2 := abs_le.mp (h.error x hx (le_trans hxy hy))
  have h3 := abs_le.mp (h.error y (le_trans hx hxy) hy)
  have h4 := h.low x y hx hxy hy
  have hp' : (P y : ℝ) ≤ c := by exact_mod_cast hp
  have he' : (cur R P c x : ℝ) ≤ cur R P c y := by exact_mod_cast he
  have hd := h.delta hx (le_trans hxy hy)
  have h5 : (c : ℝ) - Φ x ≤ |Φ x - c| := by rw [abs_sub_comm]; exact le_abs_self _
  have h6 : |Φ y - c| ≤ max (c - Φ y) δ := by
    apply abs_le.mpr
    have a1 := le_max_left ((c : ℝ) - Φ y) δ
    have a2 := le_max_right ((c : ℝ) - Φ y) δ
    constructor <;> linarith
  rcases max_cases ((c : ℝ) - Φ y) δ with ⟨e, _⟩ | ⟨e, _⟩ <;> rw [e] at h6 <;> linarith

/-- Two points above the target with non-decreasing error are close. -/
theorem Approx.close_high (h : Approx R P Φ c A B δ m L ρ) {x y : ℚ} (hx : A ≤ x) (hxy : x ≤ y)
    (hy : y ≤ B) (hp : c ≤ P x) (he : cur R P c y ≤ cur R P c x) : m * ((y : ℝ) - x) ≤ 4 * δ := by
  have h1 := abs_le.mp (h.value x hx (le_trans hxy hy))
  have h2 := abs_le.mp (h.error x hx (le_trans hxy hy))
  have h3 := abs_le.mp (h.error y (le_trans hx hxy) hy)
  have h4 := h.low x y hx hxy hy
  have hp' : (c : ℝ) ≤ P x := by exact_mod_cast hp
  have he' : (cur R P c y : ℝ) ≤ cur R P c x := by exact_mod_cast he
  have hd := h.delta hx (le_trans hxy hy)
  have h5 : Φ y - c ≤ |Φ y - c| := le_abs_self _
  have h6 : |Φ x - c| ≤ max (Φ x - c) δ := by
    apply abs_le.mpr
    have a1 := le_max_left (Φ x - (c : ℝ)) δ
    have a2 := le_max_right (Φ x - (c : ℝ)) δ
    constructor <;> linarith
  rcases max_cases (Φ x - (c : ℝ)) δ with ⟨e, _⟩ | ⟨e, _⟩ <;> rw [e] at h6 <;> linarith

/-- The interval is as narrow as the computed values can tell. -/
def Narrow (δ m ρ : ℝ) (lo hi : ℚ) : Prop := (hi : ℝ) - lo ≤ 8 * δ / m + 2 * ρ

/-- What the counter `notConverging` says about the interval. -/
structure Inv (R P : ℚ → ℚ) (c : ℚ) (δ m ρ : ℝ) (lo hi e : ℚ) (nc : Nat) : Prop where
  one : 1 ≤ nc → e = cur R P c lo ∨ e = cur R P c hi
  two : 2 ≤ nc → Narrow δ m ρ lo hi ∨ (cur R P c lo ≤ e ∧ cur R P c hi ≤ e)
  three : 3 ≤ nc → Narrow δ m ρ lo hi

theorem Approx.narrow (h : Approx R P Φ c A B δ m L ρ) {lo hi : ℚ} (hl : A ≤ lo) (hle : lo ≤ hi)
    (hh : hi ≤ B) (hc : m * ((mid R lo hi : ℝ) - lo) ≤ 4 * δ ∨ m * ((hi : ℝ) - mid R lo hi) ≤ 4 * δ) :
    Narrow δ m ρ lo hi := by
  have hm := abs_le.mp (h.middle lo hi hl hle hh)
  have hp := h.mpos
  have key : ∀ t : ℝ, m * t ≤ 4 * δ → t ≤ 4 * δ / m := by
    intro t ht
    rw [le_div_iff₀ hp]
    linarith
  have e8 : 8 * δ / m = 2 * (4 * δ / m) := by ring
  unfold Narrow
  rw [e8]
  rcases hc with hc | hc
  · have := key _ hc
    linarith
  · have := key _ hc
    linarith

/-- **Accuracy of the bisection.** -/
theorem bisect_accurate {G : ℚ → Prop} {u : ℚ} (ha : Arith R G u) (h : Approx R P Φ c A B δ m L ρ)
    (err : ℚ) (hL : 0 ≤ L) : ∀ k lo hi e nc y, G lo → G hi → A ≤ lo → lo ≤ hi → hi ≤ B → P lo ≤ c →
      c ≤ P hi → Inv R P c δ m ρ lo hi e nc → bisect R P c err k lo hi e nc = some y →
      (lo ≤ y ∧ y ≤ hi) ∧ |Φ y - c| ≤ max (err : ℝ) (L * (8 * δ / m + 2 * ρ)) + δ := by
  intro k
  induction k with
  | zero => intro lo hi e nc y _ _ _ _ _ _ _ _ hb; simp [bisect] at hb
  | succ k ih =>
    intro lo hi e nc y hl hh hA hle hB hpl hph hI hb
    obtain ⟨m1, m2, m3⟩ := ha.mid_mem hl hh hle
    set x := mid R lo hi with hx
    by_cases hend : (cur R P c x ≥ e ∧ nc + 1 > 10) ∨ ¬ cur R P c x > err
    · rw [bisect_return _ _ _ _ _ _ _ _ _ hend] at hb
      obtain rfl : x = y := by simpa using hb
      refine ⟨⟨m1, m2⟩, ?_⟩
      rcases hend with ⟨_, h2⟩ | h2
      · have hn : Narrow δ m ρ lo hi := hI.three (by omega)
        have a1 := abs_le.mp (h.value lo hA (le_trans hle hB))
        have a2 := abs_le.mp (h.value hi (le_trans hA hle) hB)
        have p1 : (P lo : ℝ) ≤ c := by exact_mod_cast hpl
        have p2 : (c : ℝ) ≤ P hi := by exact_mod_cast hph
        have b1 := h.high lo x hA m1 (le_trans m2 hB)
        have b2 := h.high x hi (le_trans hA m1) m2 hB
        have b3 := h.low lo x hA m1 (le_trans m2 hB)
        have m1' : (lo : ℝ) ≤ x := by exact_mod_cast m1
        have m2' : (x : ℝ) ≤ hi := by exact_mod_cast m2
        have w : ∀ t : ℝ, t ≤ (hi : ℝ) - lo → L * t ≤ L * (8 * δ / m + 2 * ρ) :=
          fun t ht => mul_le_mul_of_nonneg_left (le_trans ht hn) hL
        have w1 := w ((x : ℝ) - lo) (by linarith)
        have w2 := w ((hi : ℝ) - x) (by linarith)
        have mx := le_max_right (err : ℝ) (L * (8 * δ / m + 2 * ρ))
        apply abs_le.mpr
        constructor <;> linarith
      · have a1 := abs_le.mp (h.error x (le_trans hA m1) (le_trans m2 hB))
        have p : (cur R P c x : ℝ) ≤ err := by exact_mod_cast not_lt.mp h2
        have mx := le_max_left (err : ℝ) (L * (8 * δ / m + 2 * ρ))
        linarith
    · obtain ⟨hn1, hn2⟩ := not_or.mp hend
      rw [not_not] at hn2
      rw [bisect_step _ _ _ _ _ _ _ _ _ hn1 hn2] at hb
      rw [← hx] at hb
      have narrowL : P x ≤ c → cur R P c lo ≤ cur R P c x → Narrow δ m ρ lo hi := fun g1 g2 =>
        h.narrow hA hle hB (Or.inl (h.close_low hA m1 (le_trans m2 hB) g1 g2))
      have narrowH : c ≤ P x → cur R P c hi ≤ cur R P c x → Narrow δ m ρ lo hi := fun g1 g2 =>
        h.narrow hA hle hB (Or.inr (h.close_high (le_trans hA m1) m2 hB g1 g2))
      have sub : ∀ lo' hi', lo ≤ lo' → hi' ≤ hi → Narrow δ m ρ lo hi → Narrow δ m ρ lo' hi' := by
        intro lo' hi' g1 g2 g3
        have g1' : (lo : ℝ) ≤ lo' := by exact_mod_cast g1
        have g2' : (hi' : ℝ) ≤ hi := by exact_mod_cast g2
        unfold Narrow at g3 ⊢
        linarith
      by_cases hgt : P x > c
      · rw [if_pos hgt, if_pos hgt] at hb
        have := ih lo x _ _ y hl m3 hA m1 (le_trans m2 hB) hpl hgt.le ?_ hb
        · exact ⟨⟨this.1.1, le_trans this.1.2 m2⟩, this.2⟩
        · by_cases hnd : cur R P c x ≥ e
          · rw [if_pos hnd]
            refine ⟨fun _ => Or.inr rfl, fun h2 => ?_, fun h3 => ?_⟩
            · rcases hI.one (by omega) with h1 | h1
              · exact Or.inr ⟨by rw [← h1]; exact hnd, le_refl _⟩
              · exact Or.inl (sub lo x (le_refl _) m2 (narrowH hgt.le (by rw [← h1]; exact hnd)))
            · rcases hI.two (by omega) with h1 | h1
              · exact sub lo x (le_refl _) m2 h1
              · exact sub lo x (le_refl _) m2 (narrowH hgt.le (le_trans h1.2 hnd))
          · rw [if_neg hnd]
            exact ⟨fun h => absurd h (by omega), fun h => absurd h (by omega),
              fun h => absurd h (by omega)⟩
      · rw [if_neg hgt, if_neg hgt] at hb
        have := ih x hi _ _ y m3 hh (le_trans hA m1) m2 hB (not_lt.mp hgt) hph ?_ hb
        · exact ⟨⟨le_trans m1 this.1.1, this.1.2⟩, this.2⟩
        · by_cases hnd : cur R P c x ≥ e
          · rw [if_pos hnd]
            refine ⟨fun _ => Or.inl rfl, fun h2 => ?_, fun h3 => ?_⟩
            · rcases hI.one (by omega) with h1 | h1
              · exact Or.inl (sub x hi m1 (le_refl _) (narrowL (not_lt.mp hgt) (by rw [← h1]; exact hnd)))
              · exact Or.inr ⟨le_refl _, by rw [← h1]; exact hnd⟩
            · rcases hI.two (by omega) with h1 | h1
              · exact sub x hi m1 (le_refl _) h1
              · exact sub x hi m1 (le_refl _) (narrowL (not_lt.mp hgt) (le_trans h1.1 hnd))
          · rw [if_neg hnd]
            exact ⟨fun h => absurd h (by omega), fun h => absurd h (by omega),
              fun h => absurd h (by omega)⟩

end accuracy

end Dysco.Quantile
