import Verif.QuantileLemmas
import Verif.NormalLemmas
import Verif.StochasticProps

/-!
# Properties of the Gaussian quantisation table

C68: `invCumulative` ends for every function in place of the error function and every rounding.
C69: accuracy of its result when the error function is accurate.
C70: the Gaussian table, computed with `long double` and stored as float, is well formed.
-/

namespace Dysco.Quantile

open Normal Stochastic

/-! ## C68 -/

/-- Rounding to a binary format is an arithmetic in the sense of `Arith`. -/
theorem arith_rnd (f : Fl.Fmt) (hp : 1 ≤ f.p) (he : f.emin ≤ -1) :
    Arith (Fl.rnd f) (Fl.Repr f) (2 ^ f.emin) where
  pos := by positivity
  unit := by
    rintro x ⟨m, k, h1, _, rfl⟩
    obtain ⟨j, rfl⟩ : ∃ j : ℕ, k = f.emin + j := ⟨(k - f.emin).toNat, by omega⟩
    refine ⟨m * 2 ^ j, ?_⟩
    rw [zpow_add₀ (by norm_num), zpow_natCast]
    push_cast
    ring
  zero := Fl.Repr.zero f
  half := ⟨1, -1, he, by simpa using one_le_pow₀ (by norm_num : (1 : ℤ) ≤ 2), by norm_num⟩
  double := by
    rintro x ⟨m, k, h1, h2, rfl⟩
    exact ⟨m, k + 1, by omega, h2, by rw [zpow_add₀ (by norm_num)]; ring⟩
  into := Fl.repr_rnd f
  fix := fun x h => Fl.rnd_of_repr hp h
  mono := fun x y h => Fl.rnd_mono hp h

theorem start_ends {R : ℚ → ℚ} {G : ℚ → Prop} {u : ℚ} (h : Arith R G u) (P : ℚ → ℚ) {c : ℚ}
    (h0 : P 0 ≤ c) {n : Nat} (hn : c ≤ P (2 ^ (n + 1))) :
    ∃ lo hi, (∀ fuel, n + 1 ≤ fuel → start P c fuel = some (lo, hi)) ∧ G lo ∧ G hi ∧ 0 ≤ lo ∧ lo ≤ hi ∧
      P lo ≤ c ∧ c ≤ P hi ∧ ((lo = 0 ∧ hi = 1) ∨ ∃ j, j ≤ n ∧ lo = 2 ^ j ∧ hi = 2 ^ (j + 1)) := by
  have hpow : ∀ j : Nat, G (2 ^ j) := by
    intro j
    induction j with
    | zero => simpa using h.one
    | succ j ih => rw [pow_succ]; exact h.double _ ih
  by_cases h1 : P 1 < c
  · obtain ⟨j, hj, hg, hc, hlow⟩ := grow_ends P c n 1 (by simpa using hn)
    have e : (1 : ℚ) * 2 ^ (j + 1) * (1 / 2) = 2 ^ j := by rw [pow_succ]; ring
    refine ⟨2 ^ j, 2 ^ (j + 1), ?_, hpow _, hpow _, by positivity, ?_, ?_, by simpa using hc,
      Or.inr ⟨j, hj, rfl, rfl⟩⟩
    · intro fuel hf
      rw [start, if_pos h1, grow_mono P c _ _ _ hg fuel hf, Option.map_some, e]
      simp
    · exact pow_le_pow_right₀ (by norm_num) (by omega)
    · cases j with
      | zero => simpa using h1.le
      | succ j => simpa using (hlow j (by omega)).le
  · exact ⟨0, 1, fun fuel _ => by rw [start, if_neg h1], h.zero, h.one, le_refl _, by norm_num, h0,
      not_lt.mp h1, Or.inl ⟨rfl, rfl⟩⟩

/-- **C68**: `invCumulative` returns for every argument, whatever values the cumulative distribution gives
(except that it must be at most one half at zero and reach every value below one), for every
rounding to a fixed set of numbers. The result does not depend on how long one waits. -/
theorem inv_ends {R : ℚ → ℚ} {G : ℚ → Prop} {u : ℚ} (h : Arith R G u) (P : ℚ → ℚ) (h0 : P 0 ≤ 1 / 2)
    (h1 : ∀ c, c < 1 → ∃ n, c ≤ P (2 ^ (n + 1))) (err c : ℚ) :
    ∃ N y, ∀ fuel depth, N ≤ fuel → 2 ≤ depth → inv R P err fuel depth c = some y := by
  have upper : ∀ c, 1 / 2 ≤ c →
      ∃ N y, ∀ fuel depth, N ≤ fuel → 1 ≤ depth → inv R P err fuel depth c = some y := by
    intro c hc
    by_cases e1 : c = 1 / 2
    · refine ⟨0, .fin 0, fun fuel depth _ hd => ?_⟩
      obtain ⟨d, rfl⟩ : ∃ d, depth = d + 1 := ⟨depth - 1, by omega⟩
      rw [inv, if_neg (not_lt.mpr hc), if_pos e1]
    by_cases e2 : c = 1
    · refine ⟨0, .inf false, fun fuel depth _ hd => ?_⟩
      obtain ⟨d, rfl⟩ : ∃ d, depth = d + 1 := ⟨depth - 1, by omega⟩
      rw [inv, if_neg (not_lt.mpr hc), if_neg e1, if_pos e2]
    by_cases e3 : c > 1
    · refine ⟨0, .nan, fun fuel depth _ hd => ?_⟩
      obtain ⟨d, rfl⟩ : ∃ d, depth = d + 1 := ⟨depth - 1, by omega⟩
      rw [inv, if_neg (not_lt.mpr hc), if_neg e1, if_neg e2, if_pos e3]
    have hlt : c < 1 := lt_of_le_of_ne (not_lt.mp e3) e2
    obtain ⟨n, hn⟩ := h1 c hlt
    obtain ⟨lo, hi, s1, s2, s3, s4, s5, s6, s7, _⟩ := start_ends h P (le_trans h0 hc) hn
    obtain ⟨w, hw⟩ := exists_nat_ge ((hi - lo) / u)
    obtain ⟨k, y, hy⟩ := bisect_ends h P c err w lo hi hi 0 s2 s3 s5 ((div_le_iff₀ h.pos).mp hw) (by omega) s6 s7
    refine ⟨max k (n + 1), .fin y, fun fuel depth hf hd => ?_⟩
    obtain ⟨d, rfl⟩ : ∃ d, depth = d + 1 := ⟨depth - 1, by omega⟩
    rw [inv, if_neg (not_lt.mpr hc), if_neg e1, if_neg e2, if_neg e3,
      s1 fuel (le_trans (le_max_right _ _) hf)]
    simp only
    rw [bisect_mono R P c err k _ _ _ _ _ hy fuel (le_trans (le_max_left _ _) hf), Option.map_some]
  by_cases hc : c < 1 / 2
  · have hr : 1 / 2 ≤ R (1 - c) := by
      have := h.mono (1 / 2) (1 - c) (by linarith)
      rwa [h.fix _ h.half] at this
    obtain ⟨N, y, hy⟩ := upper _ hr
    refine ⟨N, Fl.neg y, fun fuel depth hf hd => ?_⟩
    obtain ⟨d, rfl⟩ : ∃ d, depth = d + 1 := ⟨depth - 1, by omega⟩
    rw [inv, if_pos hc, hy fuel d hf (by omega), Option.map_some]
  · obtain ⟨N, y, hy⟩ := upper c (not_lt.mp hc)
    exact ⟨N, y, fun fuel depth hf hd => hy fuel depth hf (by omega)⟩

/-- The arithmetic of x86 `long double` is covered. -/
theorem arith_extended : Arith (Fl.rnd extended) (Fl.Repr extended) (2 ^ (-16445 : ℤ)) :=
  arith_rnd extended (by decide) (by decide)

/-- A case in which the doubling, the bisection and the counter are all used. -/
example : ∃ N y, ∀ fuel depth, N ≤ fuel → 2 ≤ depth →
    inv (Fl.rnd extended) (fun x => if x < 3 then 1 / 2 else 1) (1 / 10 ^ 13) fuel depth (1 / 10) = some y := by
  apply inv_ends arith_extended
  · norm_num
  · intro c hc
    refine ⟨1, ?_⟩
    norm_num
    exact hc.le

/-! ## C69 -/

section normal

/-- `P` has an absolute error of at most `2^-50` on `[0, 8]`. -/
def Accurate (P : ℚ → ℚ) : Prop := ∀ x : ℚ, 0 ≤ x → x ≤ 8 → |(P x : ℝ) - Φ x| ≤ 2⁻¹ ^ 50

theorem tiny : (2 : ℚ) ^ (extended.emin - 1) ≤ 1 / 2 ^ 100 := by
  have : (1 : ℚ) / 2 ^ 100 = 2 ^ (-100 : ℤ) := by norm_num
  rw [this]
  exact zpow_le_zpow_right₀ (by norm_num) (by decide)

/-- Error of a `long double` rounding. -/
theorem ext_err (x : ℚ) : |Fl.rnd extended x - x| ≤ |x| / 2 ^ 64 + 1 / 2 ^ 100 := by
  have h := Fl.rnd_gen_err (f := extended) x
  have e : (2 : ℚ) ^ (-((extended.p : ℕ) : ℤ)) = 1 / 2 ^ 64 := by norm_num [extended]
  rw [e] at h
  have := tiny
  have e2 : |x| * (1 / 2 ^ 64) = |x| / 2 ^ 64 := by ring
  linarith

theorem approx_normal {P : ℚ → ℚ} (hP : Accurate P) {c : ℚ} (hc0 : 0 ≤ c) (hc1 : c ≤ 1) :
    Approx (Fl.rnd extended) P (fun x => Φ x) c 0 6 (2⁻¹ ^ 49) (2⁻¹ ^ 28) (2 / 5) (2⁻¹ ^ 59) where
  mpos := by positivity
  value := fun x h0 h6 => by
    have := hP x h0 (by linarith)
    have e : ((2 : ℝ)⁻¹) ^ 50 ≤ 2⁻¹ ^ 49 := by norm_num
    linarith
  error := fun x h0 h6 => by
    have h1 := hP x h0 (by linarith)
    have h2 := ext_err (P x - c)
    have b1 : (0 : ℝ) ≤ Φ x := by
      have : Φ 0 ≤ Φ x := strictMono_Φ.monotone (by exact_mod_cast h0)
      rw [Φ_zero] at this
      linarith
    have b2 : Φ (x : ℝ) ≤ 1 := by
      have hx : (x : ℝ) ≤ 6 := by exact_mod_cast h6
      have := strictMono_Φ.monotone hx
      have ht := tendsto_Φ
      exact ge_of_tendsto ht (Filter.eventually_atTop.mpr ⟨x, fun z hz => strictMono_Φ.monotone hz⟩)
    have h3 : |(P x : ℝ) - c| ≤ 2 := by
      have := abs_le.mp h1
      have g0 : (0 : ℝ) ≤ c := by exact_mod_cast hc0
      have g1 : (c : ℝ) ≤ 1 := by exact_mod_cast hc1
      have : ((2 : ℝ)⁻¹) ^ 50 ≤ 1 := by norm_num
      apply abs_le.mpr
      constructor <;> linarith
    have h3' : |P x - c| ≤ 2 := by exact_mod_cast h3
    have h4 : |Fl.rnd extended (P x - c) - (P x - c)| ≤ 1 / 2 ^ 60 := by
      refine le_trans h2 ?_
      have : |P x - c| / 2 ^ 64 ≤ 2 / 2 ^ 64 := div_le_div_of_nonneg_right h3' (by positivity)
      norm_num at this ⊢
      linarith
    have h5 : |(Fl.rnd extended (P x - c) : ℝ) - ((P x : ℝ) - c)| ≤ 1 / 2 ^ 60 := by
      have := (Rat.cast_le (K := ℝ)).mpr h4
      push_cast at this
      exact this
    have h6 : (cur (Fl.rnd extended) P c x : ℝ) = |(Fl.rnd extended (P x - c) : ℝ)| := by
      unfold cur
      push_cast
      rfl
    rw [h6]
    refine le_trans (abs_abs_sub_abs_le_abs_sub _ _) ?_
    have e : (Fl.rnd extended (P x - c) : ℝ) - (Φ x - c) =
        ((Fl.rnd extended (P x - c) : ℝ) - ((P x : ℝ) - c)) + ((P x : ℝ) - Φ x) := by ring
    rw [e]
    refine le_trans (abs_add_le _ _) ?_
    have : (1 : ℝ) / 2 ^ 60 + 2⁻¹ ^ 50 ≤ 2⁻¹ ^ 49 := by norm_num
    linarith
  low := fun x y h0 h1 h2 => by
    have h0' : (0 : ℝ) ≤ x := by exact_mod_cast h0
    have h1' : (x : ℝ) ≤ y := by exact_mod_cast h1
    have h2' : (y : ℝ) ≤ 6 := by exact_mod_cast h2
    have := le_Φ_diff (B := 6) (by linarith) h1' h2'
    have := mul_le_mul_of_nonneg_right φ6 (by linarith : (0 : ℝ) ≤ y - x)
    linarith
  high := fun x y h0 h1 h2 => Φ_diff_le (by exact_mod_cast h1)
  middle := fun lo hi h0 h1 h2 => by
    have a1 := ext_err (lo + hi)
    have a2 := ext_err (Fl.rnd extended (lo + hi) * (1 / 2))
    have s : |lo + hi| ≤ 12 := by rw [abs_of_nonneg (by linarith)]; linarith
    have a3 : |Fl.rnd extended (lo + hi) - (lo + hi)| ≤ 1 / 2 ^ 60 := by
      refine le_trans a1 ?_
      have : |lo + hi| / 2 ^ 64 ≤ 12 / 2 ^ 64 := div_le_div_of_nonneg_right s (by positivity)
      norm_num at this ⊢
      linarith
    have s2 : |Fl.rnd extended (lo + hi) * (1 / 2)| ≤ 8 := by
      have b := abs_le.mp a3
      have b' := abs_le.mp s
      apply abs_le.mpr
      norm_num at b b' ⊢
      constructor <;> linarith
    have a4 : |mid (Fl.rnd extended) lo hi - Fl.rnd extended (lo + hi) * (1 / 2)| ≤ 1 / 2 ^ 60 := by
      refine le_trans a2 ?_
      have : |Fl.rnd extended (lo + hi) * (1 / 2)| / 2 ^ 64 ≤ 8 / 2 ^ 64 :=
        div_le_div_of_nonneg_right s2 (by positivity)
      norm_num at this ⊢
      linarith
    have a5 : |mid (Fl.rnd extended) lo hi - (lo + hi) / 2| ≤ 2⁻¹ ^ 59 := by
      have b3 := abs_le.mp a3
      have b4 := abs_le.mp a4
      apply abs_le.mpr
      norm_num at b3 b4 ⊢
      constructor <;> linarith
    have := (Rat.cast_le (K := ℝ)).mpr a5
    push_cast at this
    exact this

theorem repr_small {n : ℤ} (h : |n| ≤ 100) : Fl.Repr extended n :=
  ⟨n, 0, by decide, le_trans h (by norm_num [extended]), by simp⟩

theorem bisect_normal {P : ℚ → ℚ} (hP : Accurate P) {c err : ℚ} (hc0 : 0 ≤ c) (hc1 : c ≤ 1)
    (herr : err ≤ 1 / 2 ^ 43) {lo hi : ℚ} (gl : Fl.Repr extended lo) (gh : Fl.Repr extended hi) (h0 : 0 ≤ lo)
    (hle : lo ≤ hi) (h6 : hi ≤ 6) (pl : P lo ≤ c) (ph : c ≤ P hi) (e : ℚ) :
    ∃ k y, bisect (Fl.rnd extended) P c err k lo hi e 0 = some y ∧ 0 ≤ y ∧ y ≤ 6 ∧ |Φ y - c| ≤ 2⁻¹ ^ 19 := by
  obtain ⟨w, hw⟩ := exists_nat_ge ((hi - lo) / 2 ^ (-16445 : ℤ))
  obtain ⟨k, y, hy⟩ := bisect_ends arith_extended P c err w lo hi e 0 gl gh hle
    ((div_le_iff₀ arith_extended.pos).mp hw) (by omega) pl ph
  obtain ⟨⟨y1, y2⟩, y3⟩ := bisect_accurate arith_extended (approx_normal hP hc0 hc1) err (by norm_num) k lo hi e 0 y
    gl gh h0 hle h6 pl ph ⟨by omega, by omega, by omega⟩ hy
  refine ⟨k, y, hy, le_trans h0 y1, le_trans y2 h6, le_trans y3 ?_⟩
  have herr' : (err : ℝ) ≤ 1 / 2 ^ 43 := by
    have := (Rat.cast_le (K := ℝ)).mpr herr
    push_cast at this
    exact this
  have m : max (err : ℝ) (2 / 5 * (8 * 2⁻¹ ^ 49 / 2⁻¹ ^ 28 + 2 * 2⁻¹ ^ 59)) ≤ 9 / 10 * 2⁻¹ ^ 19 := by
    apply max_le
    · refine le_trans herr' ?_
      norm_num
    · norm_num
  have : (9 / 10 : ℝ) * 2⁻¹ ^ 19 + 2⁻¹ ^ 49 ≤ 2⁻¹ ^ 19 := by norm_num
  linarith

/-- **C69**: for every probability between `1/2 + 2^-50` and `1 - 7/10^6`, `invCumulative` in `long double` arithmetic,
with a cumulative distribution that is accurate to `2^-50`, ends and returns a number whose true cumulative
probability differs by at most `2^-19` from the argument. -/
theorem inv_normal {P : ℚ → ℚ} (hP : Accurate P) {c err : ℚ} (hc0 : 1 / 2 + 1 / 2 ^ 50 ≤ c)
    (hc1 : c ≤ 1 - 7 / 10 ^ 6) (herr : err ≤ 1 / 2 ^ 43) :
    ∃ N y, 0 ≤ y ∧ y ≤ 6 ∧ |Φ (y : ℚ) - c| ≤ 2⁻¹ ^ 19 ∧ ∀ fuel depth, N ≤ fuel → 1 ≤ depth →
      inv (Fl.rnd extended) P err fuel depth c = some (.fin y) := by
  have hpos : (0 : ℚ) < 1 / 2 ^ 50 := by positivity
  have c0 : 0 ≤ c := by linarith
  have c1 : c ≤ 1 := le_trans hc1 (by norm_num)
  have hr0 : (1 / 2 + 1 / 2 ^ 50 : ℝ) ≤ c := by
    have := (Rat.cast_le (K := ℝ)).mpr hc0
    push_cast at this
    exact this
  have hr1 : (c : ℝ) ≤ 1 - 7 / 10 ^ 6 := by
    have := (Rat.cast_le (K := ℝ)).mpr hc1
    push_cast at this
    exact this
  have p0 : P 0 ≤ c := by
    have h := abs_le.mp (hP 0 (le_refl _) (by norm_num))
    rw [Rat.cast_zero, Φ_zero] at h
    have h2 : (P 0 : ℝ) ≤ c := by
      norm_num at h hr0
      linarith [h.2]
    exact_mod_cast h2
  have far : ∀ x : ℚ, 9 / 2 ≤ x → x ≤ 8 → c < P x := by
    intro x hx hx8
    have h := abs_le.mp (hP x (by linarith) hx8)
    have hx' : ((9 / 2 : ℚ) : ℝ) ≤ x := by exact_mod_cast hx
    push_cast at hx'
    have h2 := strictMono_Φ.monotone hx'
    have h3 := Φ_four_half
    have h4 : (c : ℝ) < P x := by
      have e : (2 : ℝ)⁻¹ ^ 50 < 1 / 10 ^ 6 := by norm_num
      norm_num at h3 hr1 e
      norm_num at h
      linarith [h.1]
    exact_mod_cast h4
  obtain ⟨lo, hi, s1, s2, s3, s4, s5, s6, s7, s8⟩ := start_ends arith_extended P p0 (n := 2)
    (far _ (by norm_num) (by norm_num)).le
  have main : ∃ k y, bisect (Fl.rnd extended) P c err k lo hi hi 0 = some y ∧ 0 ≤ y ∧ y ≤ 6 ∧
      |Φ (y : ℚ) - c| ≤ 2⁻¹ ^ 19 := by
    by_cases h6 : hi ≤ 6
    · exact bisect_normal hP c0 c1 herr s2 s3 s4 s5 h6 s6 s7 hi
    · obtain ⟨j, hj, rfl, rfl⟩ : ∃ j, j ≤ 2 ∧ lo = 2 ^ j ∧ hi = 2 ^ (j + 1) := by
        rcases s8 with ⟨_, h1⟩ | h1
        · rw [h1] at h6; norm_num at h6
        · exact h1
      have hj2 : j = 2 := by
        by_contra hne
        have : j = 0 ∨ j = 1 := by omega
        rcases this with rfl | rfl <;> norm_num at h6
      subst hj2
      have hm : mid (Fl.rnd extended) (2 ^ 2) (2 ^ (2 + 1)) = 6 := by
        have e1 : Fl.rnd extended 12 = 12 :=
          Fl.rnd_of_repr (by decide) (by exact_mod_cast repr_small (n := 12) (by norm_num))
        have e2 : Fl.rnd extended 6 = 6 :=
          Fl.rnd_of_repr (by decide) (by exact_mod_cast repr_small (n := 6) (by norm_num))
        rw [mid]
        norm_num
        rw [e1]
        norm_num
        exact e2
      have h6c : P 6 > c := far 6 (by norm_num) (by norm_num)
      by_cases hend : cur (Fl.rnd extended) P c 6 > err
      · obtain ⟨k, y, hy, y1, y2, y3⟩ := bisect_normal hP c0 c1 herr s2
          (by exact_mod_cast repr_small (n := 6) (by norm_num) : Fl.Repr extended 6) s4 (by norm_num) (le_refl _)
          s6 h6c.le (cur (Fl.rnd extended) P c 6)
        refine ⟨k + 1, y, ?_, y1, y2, y3⟩
        have hcur : ¬ cur (Fl.rnd extended) P c 6 ≥ 2 ^ (2 + 1) := by
          intro hge
          have h := abs_le.mp ((approx_normal hP c0 c1).error 6 (by norm_num) (le_refl _))
          have hge' : ((2 ^ (2 + 1) : ℚ) : ℝ) ≤ (cur (Fl.rnd extended) P c 6 : ℝ) := by exact_mod_cast hge
          push_cast at hge'
          have hΦ : Φ 6 ≤ 1 := ge_of_tendsto tendsto_Φ
            (Filter.eventually_atTop.mpr ⟨6, fun z hz => strictMono_Φ.monotone hz⟩)
          have hΦ0 : 0 ≤ Φ 6 := by
            have : Φ 0 ≤ Φ 6 := strictMono_Φ.monotone (by norm_num)
            rw [Φ_zero] at this
            linarith
          have hb : |Φ 6 - c| ≤ 1 := by
            apply abs_le.mpr
            norm_num at hr0 hr1
            constructor <;> linarith
          norm_num at h hge'
          linarith [h.2]
        rw [bisect_step _ _ _ _ _ _ _ _ _ (by rw [hm]; exact fun h => hcur h.1) (by rw [hm]; exact hend), hm,
          if_pos h6c, if_pos h6c, if_neg hcur]
        exact hy
      · refine ⟨1, 6, ?_, by norm_num, le_refl _, ?_⟩
        · rw [bisect_return _ _ _ _ 0 _ _ _ _ (Or.inr (by rw [hm]; exact hend)), hm]
        · have h := abs_le.mp ((approx_normal hP c0 c1).error 6 (by norm_num) (le_refl _))
          have h2 : (cur (Fl.rnd extended) P c 6 : ℝ) ≤ 1 / 2 ^ 43 := by
            have := (Rat.cast_le (K := ℝ)).mpr (le_trans (not_lt.mp hend) herr)
            push_cast at this
            exact this
          have e : (1 : ℝ) / 2 ^ 43 + 2⁻¹ ^ 49 ≤ 2⁻¹ ^ 19 := by norm_num
          linarith [h.1]
  obtain ⟨k, y, hy, y1, y2, y3⟩ := main
  refine ⟨max k 3, y, y1, y2, y3, fun fuel depth hf hd => ?_⟩
  obtain ⟨d, rfl⟩ : ∃ d, depth = d + 1 := ⟨depth - 1, by omega⟩
  rw [inv, if_neg (by linarith), if_neg (by linarith), if_neg (by norm_num at hc1; linarith), if_neg (not_lt.mpr c1),
    s1 fuel (le_trans (le_max_right _ _) hf)]
  simp only
  rw [bisect_mono _ P c err k _ _ _ _ _ hy fuel (le_trans (le_max_left _ _) hf), Option.map_some]

/-- The accuracy condition can be met. -/
theorem accurate_exists : ∃ P, Accurate P := by
  have h : ∀ x : ℚ, ∃ y : ℚ, |(y : ℝ) - Φ x| ≤ 2⁻¹ ^ 50 := by
    intro x
    obtain ⟨y, h1, h2⟩ := exists_rat_btwn (show Φ (x : ℝ) < Φ x + 2⁻¹ ^ 50 from lt_add_of_pos_right _ (by positivity))
    refine ⟨y, abs_le.mpr ⟨?_, by linarith⟩⟩
    have : (0 : ℝ) < 2⁻¹ ^ 50 := by positivity
    linarith
  choose P hP using h
  exact ⟨P, fun x _ _ => hP x⟩

/-- A case of C69 in the tail, where the interval starts at `[4, 8]`. -/
example : ∃ P, Accurate P ∧ ∃ N y, 0 ≤ y ∧ y ≤ 6 ∧ |Φ (y : ℚ) - (99999 / 100000 : ℚ)| ≤ 2⁻¹ ^ 19 ∧
    ∀ fuel depth, N ≤ fuel → 1 ≤ depth →
      inv (Fl.rnd extended) P (1 / 10 ^ 13) fuel depth (99999 / 100000) = some (.fin y) := by
  obtain ⟨P, hP⟩ := accurate_exists
  exact ⟨P, hP, inv_normal hP (by norm_num) (by norm_num) (by norm_num)⟩

/-! ## C70 -/

/-- `invCumulative` of the (rounded) fractions of the tables, on both sides of one half. -/
theorem inv_grid {P : ℚ → ℚ} (hP : Accurate P) {c err : ℚ} (hc0 : 1 / 131070 ≤ c)
    (hc1 : c ≤ 1 - 1 / 131070) (hc2 : c = 1 / 2 ∨ 1 / 131070 ≤ |c - 1 / 2|) (herr : err ≤ 1 / 2 ^ 43) :
    ∃ N y, |y| ≤ 6 ∧ |Φ (y : ℚ) - c| ≤ 2⁻¹ ^ 19 + 2⁻¹ ^ 60 ∧ ∀ fuel, N ≤ fuel →
      inv (Fl.rnd extended) P err fuel 2 (Fl.rnd extended c) = some (.fin y) := by
  have rc : ∀ z : ℚ, 0 ≤ z → z ≤ 1 → |Fl.rnd extended z - z| ≤ 1 / 2 ^ 62 := by
    intro z h0 h1
    refine le_trans (ext_err z) ?_
    rw [abs_of_nonneg h0]
    have : z / 2 ^ 64 ≤ 1 / 2 ^ 64 := div_le_div_of_nonneg_right h1 (by positivity)
    norm_num at this ⊢
    linarith
  have hcr := rc c (le_trans (by norm_num) hc0) (le_trans hc1 (by norm_num))
  have hcr' := abs_le.mp hcr
  rcases hc2 with rfl | hc2
  · refine ⟨0, 0, by norm_num, ?_, fun fuel _ => ?_⟩
    · rw [Rat.cast_zero, Φ_zero]
      norm_num
    · rw [Fl.rnd_of_repr (by decide) arith_extended.half, inv, if_neg (by norm_num), if_pos rfl]
  rcases le_total (1 / 2) c with hs | hs
  · rw [abs_of_nonneg (by linarith)] at hc2
    obtain ⟨N, y, y1, y2, y3, y4⟩ := inv_normal hP (c := Fl.rnd extended c) (err := err)
      (by norm_num at hcr' hc2 ⊢; linarith) (by norm_num at hcr' hc1 ⊢; linarith) herr
    refine ⟨N, y, abs_le.mpr ⟨by linarith, y2⟩, ?_, fun fuel hf => y4 fuel 2 hf (by omega)⟩
    have h2 : |(Fl.rnd extended c : ℝ) - c| ≤ 1 / 2 ^ 62 := by
      have := (Rat.cast_le (K := ℝ)).mpr hcr
      push_cast at this
      exact this
    have e : Φ (y : ℝ) - c = (Φ y - (Fl.rnd extended c : ℚ)) + ((Fl.rnd extended c : ℝ) - c) := by ring
    rw [e]
    refine le_trans (abs_add_le _ _) ?_
    have : (1 : ℝ) / 2 ^ 62 ≤ 2⁻¹ ^ 60 := by norm_num
    linarith
  · rw [abs_of_nonpos (by linarith)] at hc2
    have hdr := rc (1 - Fl.rnd extended c) (by norm_num at hcr' hs ⊢; linarith)
      (by norm_num at hcr' hc0 ⊢; linarith)
    have hdr' := abs_le.mp hdr
    obtain ⟨N, y, y1, y2, y3, y4⟩ := inv_normal hP (c := Fl.rnd extended (1 - Fl.rnd extended c)) (err := err)
      (by norm_num at hcr' hdr' hc2 ⊢; linarith) (by norm_num at hcr' hdr' hc0 ⊢; linarith) herr
    refine ⟨N, -y, by rw [abs_neg]; exact abs_le.mpr ⟨by linarith, y2⟩, ?_, fun fuel hf => ?_⟩
    · have h2 : |(Fl.rnd extended c : ℝ) - c| ≤ 1 / 2 ^ 62 := by
        have := (Rat.cast_le (K := ℝ)).mpr hcr
        push_cast at this
        exact this
      have h3 : |(Fl.rnd extended (1 - Fl.rnd extended c) : ℝ) - (1 - Fl.rnd extended c)| ≤ 1 / 2 ^ 62 := by
        have := (Rat.cast_le (K := ℝ)).mpr hdr
        push_cast at this
        exact this
      rw [Rat.cast_neg, Φ_neg]
      have a1 := abs_le.mp y3
      have a2 := abs_le.mp h2
      have a3 := abs_le.mp h3
      have e : (1 : ℝ) / 2 ^ 62 + 1 / 2 ^ 62 ≤ 2⁻¹ ^ 60 := by norm_num
      apply abs_le.mpr
      constructor <;> linarith
    · rw [inv, if_pos (by norm_num at hcr' hc2 ⊢; linarith), y4 fuel 1 hf (le_refl _), Option.map_some, Fl.neg]

/-- Rounding does not pass a representable bound. -/
theorem rnd_abs_le {f : Fl.Fmt} (hp : 1 ≤ f.p) {x B : ℚ} (hB : Fl.Repr f B) (h : |x| ≤ B) : |Fl.rnd f x| ≤ B := by
  rw [abs_le] at h ⊢
  constructor
  · have := Fl.rnd_mono hp h.1
    rwa [Fl.rnd_of_repr hp hB.neg] at this
  · have := Fl.rnd_mono hp h.2
    rwa [Fl.rnd_of_repr hp hB] at this

/-- The float that is stored for `stddev * x` with the product in the wider format `f`. -/
def stored (f : Fl.Fmt) (sd x : ℚ) : ℚ := Fl.rnd Fl.binary32 (Fl.rnd f (sd * x))

/-- A format at least as wide as `double`. -/
def Wide (f : Fl.Fmt) : Prop := 53 ≤ f.p ∧ f.emin ≤ -149 ∧ 128 ≤ f.emax

theorem wide_extended : Wide extended := by unfold Wide; decide
theorem wide_double : Wide Fl.binary64 := by unfold Wide; decide

theorem stored_err {f : Fl.Fmt} (hf : Wide f) {sd x : ℚ} (h0 : 1 / 2 ^ 100 ≤ sd) (hx : |x| ≤ 6) :
    |stored f sd x - sd * x| ≤ sd * (4 / 10 ^ 7) := by
  have hsd : 0 < sd := lt_of_lt_of_le (by positivity) h0
  have hsx : |sd * x| ≤ sd * 6 := by
    rw [abs_mul, abs_of_pos hsd]
    exact mul_le_mul_of_nonneg_left hx hsd.le
  have h1 := Fl.rnd_gen_err (f := f) (sd * x)
  have h2 := Fl.rnd_gen_err (f := Fl.binary32) (Fl.rnd f (sd * x))
  have e1 : |sd * x| * (2 : ℚ) ^ (-((f.p : ℕ) : ℤ)) ≤ sd * 6 * (1 / 2 ^ 53) := by
    apply mul_le_mul hsx _ (by positivity) (by positivity)
    rw [show (1 : ℚ) / 2 ^ 53 = 2 ^ (-53 : ℤ) by norm_num]
    apply zpow_le_zpow_right₀ (by norm_num)
    have := hf.1
    omega
  have e2 : (2 : ℚ) ^ (-((Fl.binary32.p : ℕ) : ℤ)) = 1 / 2 ^ 24 := by norm_num [Fl.binary32]
  have e3 : (2 : ℚ) ^ (Fl.binary32.emin - 1) = 1 / 2 ^ 150 := by norm_num [Fl.binary32]
  have e4 : (2 : ℚ) ^ (f.emin - 1) ≤ 1 / 2 ^ 150 := by
    rw [show (1 : ℚ) / 2 ^ 150 = 2 ^ (-150 : ℤ) by norm_num]
    apply zpow_le_zpow_right₀ (by norm_num)
    have := hf.2.1
    omega
  have e5 : (1 : ℚ) / 2 ^ 150 ≤ sd / 2 ^ 50 := by
    have := div_le_div_of_nonneg_right h0 (by positivity : (0 : ℚ) ≤ 2 ^ 50)
    norm_num at this ⊢
    exact this
  rw [e2, e3] at h2
  have h3 : |Fl.rnd f (sd * x)| ≤ |sd * x| + |Fl.rnd f (sd * x) - sd * x| := by
    have := abs_add_le (sd * x) (Fl.rnd f (sd * x) - sd * x)
    rwa [add_sub_cancel] at this
  have h4 : |stored f sd x - sd * x| ≤ |stored f sd x - Fl.rnd f (sd * x)| + |Fl.rnd f (sd * x) - sd * x| :=
    abs_sub_le _ _ _
  have h5 := le_trans h1 (add_le_add e1 e4)
  unfold stored at h4 ⊢
  norm_num at h2 h5 e5 ⊢
  linarith

theorem stored_fin {f : Fl.Fmt} (hf : Wide f) {sd x : ℚ} (h0 : 0 < sd) (h1 : sd ≤ 2 ^ 100) (hx : |x| ≤ 6) :
    Fl.cast Fl.r32 (Fl.mul (Fl.round f) (.fin sd) (.fin x)) = .fin (stored f sd x) ∧
      |stored f sd x| ≤ 2 ^ 103 := by
  have hsx : |sd * x| ≤ 2 ^ 103 := by
    rw [abs_mul, abs_of_pos h0]
    have : sd * |x| ≤ 2 ^ 100 * 6 := mul_le_mul h1 hx (abs_nonneg _) (by positivity)
    norm_num at this ⊢
    linarith
  have hp := hf.1
  have he := hf.2.1
  have a1 : |Fl.rnd f (sd * x)| ≤ 2 ^ 103 :=
    rnd_abs_le (by omega) ⟨1, 103, by omega, by simpa using one_le_pow₀ (by norm_num : (1 : ℤ) ≤ 2), by norm_num⟩ hsx
  have a2 : |stored f sd x| ≤ 2 ^ 103 :=
    rnd_abs_le (by decide) ⟨1, 103, by decide, by norm_num [Fl.binary32], by norm_num⟩ a1
  refine ⟨?_, a2⟩
  have b1 : |Fl.rnd f (sd * x)| < 2 ^ f.emax := by
    refine lt_of_le_of_lt a1 ?_
    rw [show (2 : ℚ) ^ 103 = 2 ^ (103 : ℤ) by norm_num]
    apply zpow_lt_zpow_right₀ (by norm_num)
    have := hf.2.2
    omega
  have b2 : |Fl.rnd Fl.binary32 (Fl.rnd f (sd * x))| < 2 ^ Fl.binary32.emax := by
    refine lt_of_le_of_lt a2 ?_
    norm_num [Fl.binary32]
  rw [Fl.mul, Fl.round, if_pos b1, Fl.cast, Fl.r32, Fl.round, if_pos b2]
  rfl

/-- Values that are at least `2/10^6` apart stay in order when they are stored. -/
theorem stored_lt {f : Fl.Fmt} (hf : Wide f) {sd x y : ℚ} (h0 : 1 / 2 ^ 100 ≤ sd) (hx : |x| ≤ 6) (hy : |y| ≤ 6)
    (h : 2 / 10 ^ 6 ≤ y - x) : stored f sd x < stored f sd y := by
  have hsd : 0 < sd := lt_of_lt_of_le (by positivity) h0
  have s1 := abs_le.mp (stored_err hf h0 hx)
  have s2 := abs_le.mp (stored_err hf h0 hy)
  have s3 := mul_le_mul_of_nonneg_left h hsd.le
  norm_num at s1 s2 s3
  linarith [s1.2, s2.1]

/-- Points whose cumulative probabilities differ by `3/10^6` are `7/10^6` apart. -/
theorem normal_gap {x y : ℚ} (h : (3 / 10 ^ 6 : ℝ) ≤ Φ y - Φ x) : 7 / 10 ^ 6 ≤ y - x := by
  have hlt : (x : ℝ) < y := by
    by_contra hcon
    have := strictMono_Φ.monotone (not_lt.mp hcon)
    norm_num at h
    linarith
  have hΦ := Φ_diff_le hlt.le
  have hgap : (7 / 10 ^ 6 : ℝ) ≤ (y : ℝ) - x := by
    norm_num at h ⊢
    linarith
  have : ((7 / 10 ^ 6 : ℚ) : ℝ) ≤ ((y - x : ℚ) : ℝ) := by push_cast; exact hgap
  exact_mod_cast this

/-- The stored value is close in probability. -/
theorem stored_prob {f : Fl.Fmt} (hf : Wide f) {sd x : ℚ} (h0 : 1 / 2 ^ 100 ≤ sd) (hx : |x| ≤ 6) :
    |Φ ((stored f sd x / sd : ℚ) : ℝ) - Φ x| ≤ 2 / 5 * (4 / 10 ^ 7) := by
  have hsd : 0 < sd := lt_of_lt_of_le (by positivity) h0
  have s1 := stored_err hf h0 hx
  have s2 : |stored f sd x / sd - x| ≤ 4 / 10 ^ 7 := by
    have e : stored f sd x / sd - x = (stored f sd x - sd * x) / sd := by
      rw [sub_div, mul_div_cancel_left₀ _ hsd.ne']
    rw [e, abs_div, abs_of_pos hsd, div_le_iff₀ hsd]
    linarith
  have s3 : |((stored f sd x / sd : ℚ) : ℝ) - x| ≤ 4 / 10 ^ 7 := by
    have := (Rat.cast_le (K := ℝ)).mpr s2
    push_cast at this ⊢
    exact this
  have lip : |Φ ((stored f sd x / sd : ℚ) : ℝ) - Φ x| ≤ 2 / 5 * |((stored f sd x / sd : ℚ) : ℝ) - x| := by
    rcases le_total ((stored f sd x / sd : ℚ) : ℝ) (x : ℝ) with h | h
    · have h1 := Φ_diff_le h
      have h2 := strictMono_Φ.monotone h
      rw [abs_of_nonpos (by linarith), abs_of_nonpos (by linarith)]
      linarith
    · have h1 := Φ_diff_le h
      have h2 := strictMono_Φ.monotone h
      rw [abs_of_nonneg (by linarith), abs_of_nonneg (by linarith)]
      linarith
  have := mul_le_mul_of_nonneg_left s3 (by norm_num : (0 : ℝ) ≤ 2 / 5)
  linarith

/-- Facts about the fractions used for at most `2^16` quantities. -/
theorem grid_facts {q : Nat} (hq : 3 ≤ q) (hq2 : q ≤ 2 ^ 16) :
    (∀ c, OnGrid q c → 1 / 131070 ≤ c ∧ c ≤ 1 - 1 / 131070 ∧ (c = 1 / 2 ∨ 1 / 131070 ≤ |c - 1 / 2|)) ∧
    ∀ c d, OnGrid q c → OnGrid q d → c < d → 1 / 131070 ≤ d - c := by
  have hn2 : (2 : ℚ) ≤ ((q - 1 : Nat) : ℚ) := by exact_mod_cast (by omega : 2 ≤ q - 1)
  have hn1 : ((q - 1 : Nat) : ℚ) ≤ 65535 := by exact_mod_cast (by omega : q - 1 ≤ 65535)
  set n : ℚ := ((q - 1 : Nat) : ℚ) with hn
  have hnpos : 0 < n := by linarith
  have step : 1 / 131070 ≤ 1 / (2 * n) := one_div_le_one_div_of_le (by linarith) (by linarith)
  constructor
  · rintro c ⟨j, j1, j2, rfl⟩
    rw [← hn]
    have e1 : (1 : ℚ) ≤ j := by exact_mod_cast j1
    have e2 : (j : ℚ) ≤ 2 * n - 1 := by
      have : ((j + 1 : Nat) : ℚ) ≤ ((2 * (q - 1) : Nat) : ℚ) := by exact_mod_cast j2
      push_cast at this
      linarith
    refine ⟨?_, ?_, ?_⟩
    · exact le_trans step (div_le_div_of_nonneg_right e1 (by linarith))
    · have : (j : ℚ) / (2 * n) ≤ (2 * n - 1) / (2 * n) := div_le_div_of_nonneg_right e2 (by linarith)
      rw [sub_div, div_self (by linarith)] at this
      linarith
    · by_cases he : j = q - 1
      · left
        rw [he, ← hn]
        field_simp
      · right
        have hd : (j : ℚ) / (2 * n) - 1 / 2 = ((j : ℚ) - n) / (2 * n) := by
          field_simp
        rw [hd, abs_div, abs_of_pos (by linarith : 0 < 2 * n)]
        refine le_trans step (div_le_div_of_nonneg_right ?_ (by linarith))
        have hz : (1 : ℤ) ≤ |(j : ℤ) - ((q - 1 : Nat) : ℤ)| := Int.one_le_abs (by omega)
        have : ((1 : ℤ) : ℚ) ≤ ((|(j : ℤ) - ((q - 1 : Nat) : ℤ)| : ℤ) : ℚ) := by exact_mod_cast hz
        push_cast at this
        exact this
  · rintro c d ⟨i, _, _, rfl⟩ ⟨j, _, _, rfl⟩ hcd
    rw [← hn] at hcd ⊢
    have h1 := (div_lt_div_iff_of_pos_right (by linarith : 0 < 2 * n)).mp hcd
    have h2 : i + 1 ≤ j := by exact_mod_cast h1
    have h3 : (i : ℚ) + 1 ≤ j := by exact_mod_cast h2
    rw [← sub_div]
    exact le_trans step (div_le_div_of_nonneg_right (by linarith) (by linarith))
/-- **C70**: the Gaussian table. For every number of quantities from 3 to `2^16` and every positive standard
deviation in a wide range, if the computed cumulative distribution is accurate to `2^-50`, the constructor ends
without leaving its memory, and the floats it stores are well formed: levels strictly ascending, boundaries
ascending with the largest float at the end, every level inside its own cell, NaN in the slot after the
last level. Each level and each boundary is, to within `2^-18` in probability, the intended quantile. -/
theorem gaussian_table (q : Nat) (hq : 3 ≤ q) (hq2 : q ≤ 2 ^ 16) {P : ℚ → ℚ} (hP : Accurate P) {err : ℚ}
    (herr : err ≤ 1 / 2 ^ 43) {sd : ℚ} (hs0 : 1 / 2 ^ 100 ≤ sd) (hs1 : sd ≤ 2 ^ 100) (e0 d0 : Nat → Fl) :
    ∃ N e b l, (∀ fuel, N ≤ fuel →
        construct q (gaussF (Fl.round extended) (Fl.rnd extended) P err fuel sd) e0 d0 = some e) ∧
      e.quantCount = q ∧ Boundaries e b ∧ Levels e l ∧
      (∀ s, s < q - 1 → (0 < s → b (s - 1) < l s) ∧ l s ≤ b s) ∧
      (∀ s, s < q - 1 → |Φ ((l s / sd : ℚ) : ℝ) - ((s + 1 / 2) / ((q - 1 : Nat) : ℚ) : ℚ)| ≤ 2⁻¹ ^ 18) ∧
      (∀ s, s < q - 2 → |Φ ((b s / sd : ℚ) : ℝ) - ((s + 1) / ((q - 1 : Nat) : ℚ) : ℚ)| ≤ 2⁻¹ ^ 18) := by
  classical
  have hsd : 0 < sd := lt_of_lt_of_le (by positivity) hs0
  obtain ⟨grid, sep⟩ := grid_facts hq hq2
  set n : ℚ := ((q - 1 : Nat) : ℚ) with hn
  have hex : ∀ c, ∃ N y, OnGrid q c → |y| ≤ 6 ∧ |Φ (y : ℚ) - c| ≤ 2⁻¹ ^ 19 + 2⁻¹ ^ 60 ∧ ∀ fuel, N ≤ fuel →
      inv (Fl.rnd extended) P err fuel 2 (Fl.rnd extended c) = some (.fin y) := by
    intro c
    by_cases hc : OnGrid q c
    · obtain ⟨g1, g2, g3⟩ := grid c hc
      obtain ⟨N, y, h⟩ := inv_grid hP g1 g2 g3 herr
      exact ⟨N, y, fun _ => h⟩
    · exact ⟨0, 0, fun h => absurd h hc⟩
  choose Nf X hX using hex
  -- one waiting time for all fractions
  let N := (Finset.range (2 * (q - 1))).sup fun j => Nf (j / (2 * n))
  have hN : ∀ c, OnGrid q c → Nf c ≤ N := by
    rintro c ⟨j, j1, j2, rfl⟩
    exact Finset.le_sup (f := fun j : Nat => Nf (j / (2 * n))) (Finset.mem_range.mpr j2)
  -- well-formedness for given fuel
  have quant : ∀ fuel, N ≤ fuel →
      QuantileOn q (gaussF (Fl.round extended) (Fl.rnd extended) P err fuel sd) fun c => stored extended sd (X c) := by
    intro fuel hf
    constructor
    · intro c hc
      obtain ⟨x1, x2, x3⟩ := hX c hc
      obtain ⟨f1, f2⟩ := stored_fin wide_extended hsd hs1 x1
      refine ⟨?_, le_trans f2 (by norm_num [fltMax])⟩
      rw [gaussF, x3 fuel (le_trans (hN c hc) hf)]
      exact f1
    · intro c d hc hd hcd
      obtain ⟨x1, x2, _⟩ := hX c hc
      obtain ⟨y1, y2, _⟩ := hX d hd
      have hs := sep c d hc hd hcd
      have hs' : (1 / 131070 : ℝ) ≤ (d : ℝ) - c := by
        have := (Rat.cast_le (K := ℝ)).mpr hs
        push_cast at this
        exact this
      have a1 := abs_le.mp x2
      have a2 := abs_le.mp y2
      have gap : (3 / 10 ^ 6 : ℝ) ≤ Φ (X d) - Φ (X c) := by
        norm_num at a1 a2 hs' ⊢
        linarith [a1.2, a2.1]
      exact stored_lt wide_extended hs0 x1 y1 (le_trans (by norm_num) (normal_gap gap))
  -- the same encoder for every fuel
  obtain ⟨e, b, l, w1, w2, w3, w4, w5, w6, w7⟩ :=
    construct_well_formed_on q hq _ _ (quant N (le_refl _)) e0 d0
  have same : ∀ fuel, N ≤ fuel →
      construct q (gaussF (Fl.round extended) (Fl.rnd extended) P err fuel sd) e0 d0 = some e := by
    intro fuel hf
    rw [← w1]
    apply construct_congr
    intro c hc
    rw [((quant fuel hf).1 c hc).1, ((quant N (le_refl _)).1 c hc).1]
  have acc : ∀ c, OnGrid q c → |Φ ((stored extended sd (X c) / sd : ℚ) : ℝ) - c| ≤ 2⁻¹ ^ 18 := by
    intro c hc
    obtain ⟨x1, x2, _⟩ := hX c hc
    have lip := stored_prob wide_extended hs0 x1
    have tri := abs_sub_le (Φ ((stored extended sd (X c) / sd : ℚ) : ℝ)) (Φ (X c)) c
    have num : (2 / 5 : ℝ) * (4 / 10 ^ 7) + (2⁻¹ ^ 19 + 2⁻¹ ^ 60) ≤ 2⁻¹ ^ 18 := by norm_num
    linarith
  refine ⟨N, e, b, l, same, w2, w3, w4, w7, ?_, ?_⟩
  · intro s hs
    rw [w5 s hs]
    exact acc _ (onGrid_level hs)
  · intro s hs
    rw [w6 s hs]
    exact acc _ (onGrid_bound (by omega))

/-- A Gaussian table with 8 bits and the factor `sqrt(3)` as stored in a float. -/
example : ∃ P N e l, Accurate P ∧ Levels e l ∧ ∀ fuel, N ≤ fuel → construct (2 ^ 8)
    (gaussF (Fl.round extended) (Fl.rnd extended) P (1 / 10 ^ 13) fuel (14529495 / 2 ^ 23)) (fun _ => .nan)
    (fun _ => .nan) = some e := by
  obtain ⟨P, hP⟩ := accurate_exists
  obtain ⟨N, e, _, l, h1, _, _, h4, _⟩ := gaussian_table (2 ^ 8) (by norm_num) (by norm_num) hP
    (err := 1 / 10 ^ 13) (by norm_num) (sd := 14529495 / 2 ^ 23) (by norm_num) (by norm_num) (fun _ => .nan) (fun _ => .nan)
  exact ⟨P, N, e, l, hP, h4, h1⟩

end normal

end Dysco.Quantile
