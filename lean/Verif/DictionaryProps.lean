import Verif.DictionaryLemmas
import Mathlib.Order.Nat

/-!
# Properties C04, C05 of the dictionary searches

Specification: in an ascending array, the position of the first element that is not less than the
value (the array size if there is none).
-/

namespace Dysco.Dictionary

variable {α : Type}

/-- `i` is the position of the first of `n` elements that is `≥ val` (or `n`). -/
def FirstNotLess [LinearOrder α] (n : Nat) (v : Nat → α) (val : α) (i : Nat) : Prop :=
  i ≤ n ∧ (∀ j, j < i → v j < val) ∧ (i < n → val ≤ v i)

/-- Ascending, duplicates allowed. -/
def Ascending [LinearOrder α] (n : Nat) (v : Nat → α) : Prop :=
  ∀ i j, i ≤ j → j < n → v i ≤ v j

/-- The specification determines the position. -/
theorem FirstNotLess.unique [LinearOrder α] {n : Nat} {v : Nat → α} {val : α} {i j : Nat}
    (hi : FirstNotLess n v val i) (hj : FirstNotLess n v val j) : i = j := by
  obtain ⟨a1, a2, a3⟩ := hi
  obtain ⟨b1, b2, b3⟩ := hj
  rcases Nat.lt_trichotomy i j with h | h | h
  · exact absurd (b2 i h) (not_lt.mpr (a3 (by omega)))
  · exact h
  · exact absurd (a2 j h) (not_lt.mpr (b3 (by omega)))

private theorem spec_of_finish [LinearOrder α] {d : Dict α} {val : α} {r : S} (h1 : r.it ≤ d.n)
    (h2 : ∀ j, j < r.it → d.v j < val) (h3 : ∀ j, r.it ≤ j → j < d.n → ¬ d.v j < val) :
    FirstNotLess d.n d.v val r.it :=
  ⟨h1, h2, fun h => not_lt.mp (h3 r.it (Nat.le_refl _) h)⟩

/-- **C04**, default search (`lower_bound`, branchless, two or more elements). -/
theorem lowerBound_correct [LinearOrder α] (d : Dict α) (hn : 2 ≤ d.n) (hs : Ascending d.n d.v)
    (val : α) :
    ∃ i, lowerBound (ordCmp α) d val = some i ∧ FirstNotLess d.n d.v val i := by
  obtain ⟨s1, e1, _, c1⟩ := probeStep_some (ordCmp α) d val (bitFloor d.n) ⟨0, 0⟩
  have hI := first_inv d hs val (by omega) s1 e1
  obtain ⟨s2, e2, _⟩ := loop_some (ordCmp α) d val (bitFloor d.n / 2) s1 hI.lt
  have hI2 := loop_inv d hs val d.n.log2 s1 s2 (bitFloor_le (by omega)) hI e2
  obtain ⟨r, e3, h1, h2, h3⟩ := inv_finish d hs val s2 hI2
  exact ⟨r.it, by simp [lowerBound, branchlessTwoMin, e1, e2, e3], spec_of_finish h1 h2 h3⟩

/-- **C04**, `lower_bound_branchless` (one or more elements). -/
theorem branchless_correct [LinearOrder α] (d : Dict α) (hn : 1 ≤ d.n) (hs : Ascending d.n d.v)
    (val : α) :
    ∃ r, branchless (ordCmp α) d val = some r ∧ FirstNotLess d.n d.v val r.it := by
  obtain ⟨s1, e1, _, c1⟩ := probeStep_some (ordCmp α) d val (bitFloor d.n) ⟨0, 0⟩
  have hI := first_inv d hs val (by omega) s1 e1
  obtain ⟨s2, e2, _⟩ := loop_some (ordCmp α) d val (bitFloor d.n / 2) s1 hI.lt
  have hI2 := loop_inv d hs val d.n.log2 s1 s2 (bitFloor_le (by omega)) hI e2
  obtain ⟨r, e3, h1, h2, h3⟩ := inv_finish d hs val s2 hI2
  have hpos := bitFloor_pos d.n
  refine ⟨r, ?_, spec_of_finish h1 h2 h3⟩
  rw [branchless, branchlessLoop, if_neg (by omega), e1]
  simp [e2, e3]

/-- Strictly ascending (no duplicates). -/
def StrictlyAscending [LinearOrder α] (n : Nat) (v : Nat → α) : Prop :=
  ∀ i j, i < j → j < n → v i < v j

private theorem pick_correct [LinearOrder α] (d : Dict α) (hs : StrictlyAscending d.n d.v) (val : α)
    (p q : Nat) (hpq : p + 1 = q) (hq : q ≤ d.n) (hp : p = 0 ∨ d.v p ≤ val)
    (hqv : q = d.n ∨ ¬ d.v q ≤ val) :
    ∃ i, pick (ordCmp α) d val (p, q) = some i ∧ FirstNotLess d.n d.v val i := by
  unfold pick
  rw [rd_lt (show (p, q).1 < d.n by simp; omega)]
  by_cases hc : d.v p < val
  · refine ⟨q, by simp [ordCmp, hc], hq, ?_, ?_⟩
    · intro j hj
      rcases Nat.lt_or_ge j p with h | h
      · exact lt_trans (hs j p h (by omega)) hc
      · have : j = p := by omega
        rw [this]; exact hc
    · intro h
      rcases hqv with h' | h'
      · omega
      · exact le_of_lt (not_le.mp h')
  · refine ⟨p, by simp [ordCmp, hc], by omega, ?_, fun _ => not_lt.mp hc⟩
    intro j hj
    rcases hp with h | h
    · omega
    · exact lt_of_lt_of_le (hs j p hj (by omega)) h

/-- **C04**, `lower_bound_one_minimum` (one or more distinct elements). -/
theorem oneMin_correct [LinearOrder α] (d : Dict α) (hn : 1 ≤ d.n)
    (hs : StrictlyAscending d.n d.v) (val : α) :
    ∃ i, oneMin (ordCmp α) d val = some i ∧ FirstNotLess d.n d.v val i := by
  obtain ⟨p, q, e, h1, _, h2, h3, h4⟩ := bisect_some (ordCmp α) d val d.n 0 d.n (by omega) (by omega)
    (Nat.le_refl _)
  obtain ⟨i, e2, hi⟩ := pick_correct d hs val p q h1 h2 (by simpa [ordCmp] using h3)
    (by simpa [ordCmp] using h4)
  exact ⟨i, by simp [oneMin, e, e2], hi⟩

/-- **C04**, `lower_bound_slow` (one or more distinct elements). -/
theorem slow_correct [LinearOrder α] (d : Dict α) (hn : 1 ≤ d.n)
    (hs : StrictlyAscending d.n d.v) (val : α) :
    ∃ i, slow (ordCmp α) d val = some i ∧ FirstNotLess d.n d.v val i := by
  obtain ⟨p, q, e, h1, _, h2, h3, h4⟩ := bisectSlow_some (ordCmp α) d val d.n 0 d.n (by omega)
    (by omega) (Nat.le_refl _)
  obtain ⟨i, e2, hi⟩ := pick_correct d hs val p q h1 h2 (by simpa [ordCmp] using h3)
    (by simpa [ordCmp] using h4)
  exact ⟨i, by simp [slow, e, e2], hi⟩

/-- **C04**, `lower_bound_two_minimum` (two or more distinct elements). -/
theorem twoMin_correct [LinearOrder α] (d : Dict α) (hn : 2 ≤ d.n)
    (hs : StrictlyAscending d.n d.v) (val : α) :
    ∃ i, twoMin (ordCmp α) d val = some i ∧ FirstNotLess d.n d.v val i := by
  unfold twoMin
  simp only [rd_lt (show d.n / 2 < d.n by omega)]
  by_cases hc : d.v (d.n / 2) ≤ val
  · obtain ⟨p, q, e, h1, _, h2, h3, h4⟩ := bisect_some (ordCmp α) d val (d.n - d.n / 2) (d.n / 2) d.n
      rfl (by omega) (Nat.le_refl _)
    have h3' : p = 0 ∨ d.v p ≤ val := by
      rcases h3 with h3 | h3
      · right; rw [h3]; exact hc
      · right; simpa [ordCmp] using h3
    obtain ⟨i, e2, hi⟩ := pick_correct d hs val p q h1 h2 h3' (by simpa [ordCmp] using h4)
    exact ⟨i, by rw [if_pos (by simpa [ordCmp] using hc), e]; exact e2, hi⟩
  · obtain ⟨p, q, e, h1, _, h2, h3, h4⟩ := bisect_some (ordCmp α) d val (d.n / 2) 0 (d.n / 2)
      (by omega) (by omega) (by omega)
    have h4' : q = d.n ∨ ¬ d.v q ≤ val := by
      rcases h4 with h4 | h4
      · right; rw [h4]; exact hc
      · right; simpa [ordCmp] using h4
    obtain ⟨i, e2, hi⟩ := pick_correct d hs val p q h1 (by omega) (by simpa [ordCmp] using h3) h4'
    exact ⟨i, by rw [if_neg (by simpa [ordCmp] using hc), e]; exact e2, hi⟩

/-- **C04**, all five variants return the same position on every dictionary of two or more
distinct ascending elements. -/
theorem variants_agree [LinearOrder α] (d : Dict α) (hn : 2 ≤ d.n)
    (hs : StrictlyAscending d.n d.v) (val : α) :
    ∃ i, lowerBound (ordCmp α) d val = some i ∧ (branchless (ordCmp α) d val).map S.it = some i ∧
      twoMin (ordCmp α) d val = some i ∧ oneMin (ordCmp α) d val = some i ∧
      slow (ordCmp α) d val = some i := by
  have ha : Ascending d.n d.v := by
    intro i j hij hj
    rcases Nat.lt_or_ge i j with h | h
    · exact le_of_lt (hs i j h hj)
    · have : i = j := by omega
      rw [this]
  obtain ⟨a, ea, ha'⟩ := lowerBound_correct d hn ha val
  obtain ⟨b, eb, hb⟩ := branchless_correct d (by omega) ha val
  obtain ⟨c, ec, hc⟩ := twoMin_correct d hn hs val
  obtain ⟨e, ee, he⟩ := oneMin_correct d (by omega) hs val
  obtain ⟨f, ef, hf⟩ := slow_correct d (by omega) hs val
  refine ⟨a, ea, ?_, ?_, ?_, ?_⟩
  · rw [eb, Option.map_some, hb.unique ha']
  · rw [ec, hc.unique ha']
  · rw [ee, he.unique ha']
  · rw [ef, hf.unique ha']

/-- Without distinct elements the variants disagree: on `[1, 1]` and value 1 the default search
returns the first element, the bisecting ones return the second. -/
theorem variants_differ_on_duplicates :
    lowerBound (ordCmp Nat) ⟨2, fun _ => 1⟩ 1 = some 0 ∧
    twoMin (ordCmp Nat) ⟨2, fun _ => 1⟩ 1 = some 1 ∧
    oneMin (ordCmp Nat) ⟨2, fun _ => 1⟩ 1 = some 1 ∧
    slow (ordCmp Nat) ⟨2, fun _ => 1⟩ 1 = some 1 := by
  refine ⟨?_, ?_, ?_, ?_⟩
  · simp [lowerBound, branchlessTwoMin, bitFloor, probeStep, branchlessLoop, finish, rd, ordCmp,
      show Nat.log2 2 = 1 by decide]
  · simp [twoMin, bisect, pick, rd, ordCmp]
  · simp [oneMin, bisect, pick, rd, ordCmp]
  · simp [slow, bisectSlow, pick, rd, ordCmp]

/-- **C05**: with any contents (unsorted, duplicates, NaN: arbitrary comparison results) and any
value, no variant reads outside the dictionary, and the result is a position from `begin` to
`end`. -/
theorem searches_in_bounds (c : Cmp α) (d : Dict α) (val : α) (hn : 1 ≤ d.n) :
    (∃ r, branchlessTwoMin c d val = some r ∧ r.it ≤ d.n) ∧
    (∃ r, branchless c d val = some r ∧ r.it ≤ d.n) ∧
    (2 ≤ d.n → ∃ i, twoMin c d val = some i ∧ i ≤ d.n) ∧
    (∃ i, oneMin c d val = some i ∧ i ≤ d.n) ∧
    (∃ i, slow c d val = some i ∧ i ≤ d.n) := by
  have pickOk : ∀ p q, p < d.n → p + 1 = q → ∃ i, pick c d val (p, q) = some i ∧ i ≤ d.n := by
    intro p q h1 h2
    unfold pick
    rw [rd_lt (show (p, q).1 < d.n from h1)]
    refine ⟨_, rfl, ?_⟩
    split <;> simp <;> omega
  have fin : ∀ s : S, s.it < d.n → ∃ r, finish c d val s = some r ∧ r.it ≤ d.n := by
    intro s hs
    refine ⟨_, finish_some c d val s hs, ?_⟩
    split
    · simp; omega
    · omega
  refine ⟨?_, ?_, ?_, ?_, ?_⟩
  · obtain ⟨s1, e1, _, c1⟩ := probeStep_some c d val (bitFloor d.n) ⟨0, 0⟩
    have h1 : s1.it < d.n := by
      rcases c1 with ⟨_, h, _⟩ | ⟨h, _⟩
      · exact h
      · simp at h; omega
    obtain ⟨s2, e2, h2⟩ := loop_some c d val (bitFloor d.n / 2) s1 h1
    obtain ⟨r, e3, h3⟩ := fin s2 h2
    exact ⟨r, by simp [branchlessTwoMin, e1, e2, e3], h3⟩
  · obtain ⟨s2, e2, h2⟩ := loop_some c d val (bitFloor d.n) ⟨0, 0⟩ (by simp; omega)
    obtain ⟨r, e3, h3⟩ := fin s2 h2
    exact ⟨r, by simp [branchless, e2, e3], h3⟩
  · intro hn2
    unfold twoMin
    simp only [rd_lt (show d.n / 2 < d.n by omega)]
    by_cases hc : c.le (d.v (d.n / 2)) val = true
    · obtain ⟨p, q, e, h1, _, h2, _⟩ := bisect_some c d val (d.n - d.n / 2) (d.n / 2) d.n rfl
        (by omega) (Nat.le_refl _)
      obtain ⟨i, e2, hi⟩ := pickOk p q (by omega) h1
      exact ⟨i, by rw [if_pos hc, e]; exact e2, hi⟩
    · obtain ⟨p, q, e, h1, _, h2, _⟩ := bisect_some c d val (d.n / 2) 0 (d.n / 2) (by omega) (by omega)
        (by omega)
      obtain ⟨i, e2, hi⟩ := pickOk p q (by omega) h1
      exact ⟨i, by rw [if_neg hc, e]; exact e2, hi⟩
  · obtain ⟨p, q, e, h1, _, h2, _⟩ := bisect_some c d val d.n 0 d.n (by omega) (by omega) (Nat.le_refl _)
    obtain ⟨i, e2, hi⟩ := pickOk p q (by omega) h1
    exact ⟨i, by simp [oneMin, e, e2], hi⟩
  · obtain ⟨p, q, e, h1, _, h2, _⟩ := bisectSlow_some c d val d.n 0 d.n (by omega) (by omega)
      (Nat.le_refl _)
    obtain ⟨i, e2, hi⟩ := pickOk p q (by omega) h1
    exact ⟨i, by simp [slow, e, e2], hi⟩

/-- **C05**, pointer arithmetic: for dictionaries of `2^k - 1 ≥ 2` elements (the sizes the encoders
create for `k` bits) the default search never forms a pointer beyond one past the end, for any
contents and value. -/
theorem lowerBound_pointers_ok (c : Cmp α) (d : Dict α) (val : α) (k : Nat) (hk : 2 ≤ k)
    (hn : d.n = 2 ^ k - 1) (r : S) (e : branchlessTwoMin c d val = some r) : r.formed ≤ d.n := by
  obtain ⟨j, rfl⟩ := Nat.exists_eq_add_of_le hk
  have hp : 0 < 2 ^ j := Nat.two_pow_pos j
  have e4 : 2 ^ (2 + j) = 4 * 2 ^ j := by rw [Nat.pow_add]
  have e2 : 2 ^ (j + 1) = 2 * 2 ^ j := by rw [Nat.pow_succ]; omega
  have hlog : d.n.log2 = j + 1 := by
    rw [Nat.log2_eq_iff (by omega)]
    have : 2 ^ (j + 1 + 1) = 4 * 2 ^ j := by rw [Nat.pow_succ]; omega
    omega
  have hbf : bitFloor d.n = 2 ^ (j + 1) := by rw [bitFloor, hlog]
  obtain ⟨s1, e1, f1, c1⟩ := probeStep_some c d val (bitFloor d.n) ⟨0, 0⟩
  have h1 : s1.it < d.n := by
    rcases c1 with ⟨_, h, _⟩ | ⟨h, _⟩
    · exact h
    · simp at h; omega
  have hm : min (bitFloor d.n) (d.n - 1) = 2 * 2 ^ j := by rw [hbf]; omega
  have h1' : s1.it ≤ 2 * 2 ^ j := by
    rcases c1 with ⟨h, _⟩ | ⟨h, _⟩
    · rw [hm] at h; simp at h; omega
    · simp at h; omega
  rw [branchlessTwoMin, e1] at e
  simp only at e
  have hh : bitFloor d.n / 2 = 2 ^ j := by rw [hbf]; omega
  rw [hh] at e
  cases hl : branchlessLoop c d val (2 ^ j) s1 with
  | none => rw [hl] at e; simp at e
  | some s2 =>
    rw [hl] at e
    have hf2 := loop_formed c d val (2 + j) (by omega) j s1 s2 h1 (by omega)
      (by rw [f1, hm]; simp; omega) hl
    obtain ⟨s3, e3, h3⟩ := loop_some c d val (2 ^ j) s1 h1
    rw [hl] at e3
    cases e3
    simp only at e
    rw [finish_some c d val s2 h3] at e
    cases e
    split
    · simp; omega
    · exact hf2

/-- For other sizes the default search can form an invalid pointer (undefined behaviour in C++, even
though it is not dereferenced): 4 elements, value above all of them, pointer `begin + 5`. -/
theorem lowerBound_forms_invalid_pointer :
    ∃ r, branchlessTwoMin (ordCmp Nat) ⟨4, fun i => i⟩ 9 = some r ∧ r.it = 4 ∧ 4 + 1 ≤ r.formed := by
  refine ⟨⟨4, 5⟩, ?_, rfl, by decide⟩
  simp [branchlessTwoMin, bitFloor, probeStep, branchlessLoop, finish, rd, ordCmp,
      show Nat.log2 4 = 2 by decide]

/-- Debug builds: the assertion in `symbol()` fails for the first position, which the searches
return for every value not above the first element. -/
theorem symbol_assertion_fails_on_first [LinearOrder α] (d : Dict α) (hn : 2 ≤ d.n)
    (hs : Ascending d.n d.v) (val : α) (hv : val ≤ d.v 0) :
    (lowerBound (ordCmp α) d val).bind (symbol true) = none ∧
    (lowerBound (ordCmp α) d val).bind (symbol false) = some 0 := by
  obtain ⟨i, e, h1, h2, h3⟩ := lowerBound_correct d hn hs val
  have : i = 0 := by
    rcases Nat.eq_zero_or_pos i with h | h
    · exact h
    · exact absurd (h2 0 h) (not_lt.mpr hv)
  subst this
  simp [e, symbol]

/-! ## The hypotheses are satisfiable -/

example : ∃ i, lowerBound (ordCmp Nat) ⟨3, fun i => i / 2⟩ 1 = some i ∧
    FirstNotLess 3 (fun i => i / 2) 1 i :=
  lowerBound_correct ⟨3, fun i => i / 2⟩ (by decide)
    (by intro i j h _; exact Nat.div_le_div_right h) 1

example : ∃ i, twoMin (ordCmp Nat) ⟨5, fun i => 2 * i + 1⟩ 6 = some i ∧
    FirstNotLess 5 (fun i => 2 * i + 1) 6 i :=
  twoMin_correct ⟨5, fun i => 2 * i + 1⟩ (by decide)
    (by intro i j h _; simp only; omega) 6

example : FirstNotLess 5 (fun i => 2 * i + 1) 6 3 := by
  refine ⟨by decide, ?_, by simp⟩
  intro j hj; simp only; omega

example : ∃ r, branchlessTwoMin (ordCmp Nat) ⟨7, fun i => i⟩ 3 = some r ∧ r.formed ≤ 7 := by
  obtain ⟨⟨r, e, _⟩, _⟩ := searches_in_bounds (ordCmp Nat) ⟨7, fun i => i⟩ 3 (by decide)
  exact ⟨r, e, lowerBound_pointers_ok _ _ _ 3 (by decide) (by decide) r e⟩

/-! The other searches on the odd numbers 1, 3, 5, 7, 9. -/

example : ∃ i, oneMin (ordCmp Nat) ⟨5, fun i => 2 * i + 1⟩ 6 = some i ∧ FirstNotLess 5 (fun i => 2 * i + 1) 6 i :=
  oneMin_correct ⟨5, fun i => 2 * i + 1⟩ (by decide) (by intro i j h _; simp only; omega) 6

example : ∃ i, slow (ordCmp Nat) ⟨5, fun i => 2 * i + 1⟩ 6 = some i ∧ FirstNotLess 5 (fun i => 2 * i + 1) 6 i :=
  slow_correct ⟨5, fun i => 2 * i + 1⟩ (by decide) (by intro i j h _; simp only; omega) 6

example : ∃ r, branchless (ordCmp Nat) ⟨5, fun i => i / 2⟩ 1 = some r ∧ FirstNotLess 5 (fun i => i / 2) 1 r.it :=
  branchless_correct ⟨5, fun i => i / 2⟩ (by decide) (by intro i j h _; exact Nat.div_le_div_right h) 1

example : ∃ i, lowerBound (ordCmp Nat) ⟨5, fun i => 2 * i + 1⟩ 6 = some i ∧ slow (ordCmp Nat) ⟨5, fun i => 2 * i + 1⟩ 6 = some i := by
  obtain ⟨i, h1, -, -, -, h2⟩ := variants_agree ⟨5, fun i => 2 * i + 1⟩ (by decide) (by intro i j h _; simp only; omega) (6 : Nat)
  exact ⟨i, h1, h2⟩

end Dysco.Dictionary
