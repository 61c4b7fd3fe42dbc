import Verif.PowerAF
import Verif.AFPolsProps

/-!
# C135, antenna-frequency normalisation: the stored block
-/

namespace Dysco.AF
open TimeBlock Stochastic

/-! ## A correctly rounded square root -/

theorem odd_part (n : ℕ) (hn : 0 < n) : ∃ t m : ℕ, Odd m ∧ n = 2 ^ t * m := by
  induction n using Nat.strong_induction_on with
  | h n ih =>
    rcases Nat.even_or_odd n with ⟨k, hk⟩ | ho
    · obtain ⟨t, m, hm, e⟩ := ih k (by omega) (by omega)
      exact ⟨t + 1, m, hm, by rw [hk, e]; ring⟩
    · exact ⟨0, n, ho, by simp⟩

/-- A dyadic number whose square has 53 bits has at most 53 bits. -/
theorem repr64_of_square {q : ℚ} {a e : ℤ} (hq : q = a * 2 ^ e) (h1 : (2 : ℚ) ^ (-500 : ℤ) ≤ q) {M E : ℤ}
    (hM : |M| ≤ 2 ^ 53) (hs : q * q = M * 2 ^ E) : Fl.Repr Fl.binary64 q := by
  have hq0 : 0 < q := lt_of_lt_of_le (Fl.zp_pos _) h1
  have ha : 0 < a := by
    by_contra hc
    have : (a : ℚ) ≤ 0 := by exact_mod_cast not_lt.1 hc
    have := mul_nonpos_of_nonpos_of_nonneg this (Fl.zp_pos e).le
    linarith
  obtain ⟨n, rfl⟩ : ∃ n : ℕ, a = n := ⟨a.toNat, by omega⟩
  obtain ⟨t, m, hm, hn⟩ := odd_part n (by omega)
  have hq2 : q = (m : ℤ) * 2 ^ ((t : ℤ) + e) := by
    rw [hq, hn, zpow_add₀ (by norm_num)]
    push_cast
    rw [zpow_natCast]
    ring
  set f := (t : ℤ) + e with hf
  have hp : ((m * m : ℕ) : ℚ) * 2 ^ (2 * f) = M * 2 ^ E := by
    rw [← hs, hq2, two_mul, zpow_add₀ (by norm_num)]
    push_cast
    ring
  have hmm : Odd (m * m) := hm.mul hm
  have key : m * m ≤ 2 ^ 53 := by
    rcases le_or_gt E (2 * f) with hle | hlt
    · obtain ⟨k, hk⟩ := Int.le.dest hle
      rw [← hk, zpow_add₀ (by norm_num), zpow_natCast] at hp
      have h2 : ((m * m * 2 ^ k : ℕ) : ℚ) = M := by
        have := (Fl.zp_pos E).ne'
        have h3 : ((m * m : ℕ) : ℚ) * 2 ^ k * 2 ^ E = M * 2 ^ E := by rw [← hp]; ring
        have h4 := mul_right_cancel₀ this h3
        push_cast at h4 ⊢
        exact h4
      have h5 : ((m * m * 2 ^ k : ℕ) : ℤ) = M := by exact_mod_cast h2
      have h6 : (M : ℤ) ≤ 2 ^ 53 := le_trans (le_abs_self M) hM
      have h7 : m * m * 2 ^ k ≤ 2 ^ 53 := by
        rw [← h5] at h6
        exact_mod_cast h6
      exact le_trans (Nat.le_mul_of_pos_right _ (by positivity)) h7
    · exfalso
      obtain ⟨k, hk⟩ := Int.le.dest (show 2 * f + 1 ≤ E by omega)
      have e3 : E = 2 * f + ((k + 1 : ℕ) : ℤ) := by push_cast; omega
      rw [e3, zpow_add₀ (by norm_num), zpow_natCast] at hp
      have h2 : ((m * m : ℕ) : ℚ) = M * 2 ^ (k + 1) := by
        have := (Fl.zp_pos (2 * f)).ne'
        have h3 : ((m * m : ℕ) : ℚ) * 2 ^ (2 * f) = M * 2 ^ (k + 1) * 2 ^ (2 * f) := by rw [hp]; ring
        exact mul_right_cancel₀ this h3
      have h5 : ((m * m : ℕ) : ℤ) = M * 2 ^ (k + 1) := by exact_mod_cast h2
      have h6 : Odd ((m * m : ℕ) : ℤ) := by exact_mod_cast hmm
      rw [h5, pow_succ, ← mul_assoc] at h6
      exact (Int.not_even_iff_odd.2 h6) ⟨M * 2 ^ k, by ring⟩
  have hm53 : m ≤ 2 ^ 53 := le_trans (Nat.le_mul_self m) key
  have hmq : (m : ℚ) ≤ 2 ^ (53 : ℤ) := by exact_mod_cast hm53
  have hfe : -1074 ≤ f := by
    have h2 : (2 : ℚ) ^ (-500 : ℤ) ≤ 2 ^ (53 + f) := by
      refine le_trans h1 ?_
      rw [hq2, ← zadd 53 f]
      push_cast
      exact mul_le_mul_of_nonneg_right hmq (Fl.zp_pos f).le
    have := exp_le h2
    omega
  refine ⟨m, f, hfe, ?_, hq2⟩
  rw [abs_of_nonneg (by positivity)]
  exact_mod_cast hm53

/-- A power of two times a number far from the smallest double. -/
theorem repr64_scaled {y : ℚ} {k : ℤ} (h : Fl.Repr Fl.binary64 y) (h1 : (2 : ℚ) ^ (-300 : ℤ) ≤ y) (hk : -600 ≤ k) :
    Fl.Repr Fl.binary64 (y * 2 ^ k) := by
  obtain ⟨m, e, he, hm, hy⟩ := h
  have hm2 : (m : ℚ) ≤ 2 ^ (53 : ℤ) := by
    have : m ≤ 2 ^ 53 := le_trans (le_abs_self m) hm
    exact_mod_cast this
  have h2 : (2 : ℚ) ^ (-300 : ℤ) ≤ 2 ^ (53 + e) := by
    refine le_trans h1 ?_
    rw [hy, ← zadd]
    exact mul_le_mul_of_nonneg_right hm2 (Fl.zp_pos e).le
  have := exp_le h2
  refine ⟨m, e + k, ?_, hm, by rw [hy, zpow_add₀ (by norm_num), mul_assoc]⟩
  show -1074 ≤ e + k
  omega

/-- A correctly rounded square root (what IEEE 754 requires of `std::sqrt` for `double`) fulfils `SqrtPow`. A tie does not
occur. -/
theorem sqrtPow_of_nearest {sq : Fl → Fl} (h0 : sq (.fin 0) = .fin 0) (hn : sq .nan = .nan)
    (hp : ∀ x, 0 < x → ∃ y, sq (.fin x) = .fin y ∧ Fl.Repr Fl.binary64 y ∧
      ∀ z, Fl.Repr Fl.binary64 z → |(y : ℝ) - √(x : ℝ)| ≤ |(z : ℝ) - √(x : ℝ)|) : SqrtPow sq := by
  have hmono := sqrtMono_of_nearest h0 hn (fun x hx => by
    obtain ⟨y, e, -, h⟩ := hp x hx
    exact ⟨y, e, h⟩)
  intro x k hx h1 h2 h1' h2'
  have hx0 : 0 < x := lt_of_lt_of_le (Fl.zp_pos _) h1
  have hx0' := mul_pos hx0 (Fl.zp_pos (2 * k))
  have hk : -600 ≤ k ∧ k ≤ 600 := by
    have a := le_trans h1' (mul_le_mul_of_nonneg_right h2 (Fl.zp_pos (2 * k)).le)
    have b := le_trans (mul_le_mul_of_nonneg_right h1 (Fl.zp_pos (2 * k)).le) h2'
    rw [zadd] at a b
    have a' := exp_le a
    have b' := exp_le b
    omega
  obtain ⟨y, e, yr, ny⟩ := hp x hx0
  obtain ⟨w, e', wr, nw⟩ := hp _ hx0'
  have low : ∀ {x y : ℚ}, 0 < x → (2 : ℚ) ^ (-600 : ℤ) ≤ x → sq (.fin x) = .fin y → (2 : ℚ) ^ (-300 : ℤ) ≤ y := by
    intro x y hx0 hx e
    obtain ⟨y', e1, h⟩ := hmono.pos x hx0
    rw [e] at e1
    cases e1
    exact (h (-300) (by norm_num)).1 hx
  have yl := low hx0 h1 e
  have wl := low hx0' h1' e'
  clear h1 h2 h1' h2'
  have pk : (0 : ℝ) < 2 ^ k := zpow_pos (by norm_num) k
  have hs : √((x * 2 ^ (2 * k) : ℚ) : ℝ) = √(x : ℝ) * 2 ^ k := by
    have e2 : ((x * 2 ^ (2 * k) : ℚ) : ℝ) = (x : ℝ) * ((2 : ℝ) ^ k) ^ 2 := by
      push_cast
      rw [← zpow_natCast ((2 : ℝ) ^ k), ← zpow_mul, mul_comm k]
      norm_num
    rw [e2, Real.sqrt_mul (by exact_mod_cast hx0.le), Real.sqrt_sq pk.le]
  have n1 := ny _ (repr64_scaled wr wl (by omega : -600 ≤ -k))
  have n2 := nw _ (repr64_scaled yr yl hk.1)
  rw [hs] at n2
  push_cast at n1 n2
  set S := √(x : ℝ) with hS
  -- both are equally far from the root
  have n1' : |(y : ℝ) * 2 ^ k - S * 2 ^ k| ≤ |(w : ℝ) - S * 2 ^ k| := by
    have := mul_le_mul_of_nonneg_right n1 pk.le
    rw [← abs_of_pos pk, ← abs_mul, ← abs_mul, sub_mul, sub_mul, mul_assoc (w : ℝ), ← zpow_add₀ (by norm_num)] at this
    simpa using this
  have heq := le_antisymm n1' n2
  rw [e, e']
  simp only [Fl.scale2]
  congr 1
  rcases abs_eq_abs.1 heq with h | h
  · have : ((y * 2 ^ k : ℚ) : ℝ) = (w : ℝ) := by
      push_cast
      linarith
    exact_mod_cast this.symm
  · -- the root is the mean of both, so it is a double
    have hmean : S * 2 ^ k = (((y * 2 ^ k + w) / 2 : ℚ) : ℝ) := by
      push_cast
      linarith
    set q := (y * 2 ^ k + w) / 2 with hq
    have hsq : q * q = x * 2 ^ (2 * k) := by
      have : ((q * q : ℚ) : ℝ) = ((x * 2 ^ (2 * k) : ℚ) : ℝ) := by
        rw [Rat.cast_mul, ← hmean, ← hs, Real.mul_self_sqrt (by exact_mod_cast hx0'.le)]
      exact_mod_cast this
    have hqr : Fl.Repr Fl.binary64 q := by
      obtain ⟨m1, e1, -, -, q1⟩ := repr64_scaled yr yl hk.1
      obtain ⟨m2, e2, -, -, q2⟩ := wr
      obtain ⟨s1, hs1⟩ := Int.le.dest (min_le_left e1 e2)
      obtain ⟨s2, hs2⟩ := Int.le.dest (min_le_right e1 e2)
      obtain ⟨m, e0, -, hm, hxe⟩ := hx
      refine repr64_of_square (a := m1 * 2 ^ s1 + m2 * 2 ^ s2) (e := min e1 e2 - 1) (M := m) (E := e0 + 2 * k) ?_ ?_ hm
        (by rw [hsq, hxe, zpow_add₀ (by norm_num), mul_assoc])
      · rw [hq, q1, q2, zpow_sub₀ (by norm_num), zpow_one]
        have f1 : (2 : ℚ) ^ e1 = 2 ^ s1 * 2 ^ min e1 e2 := by
          rw [← zpow_natCast, ← zpow_add₀ (by norm_num)]
          congr 1
          omega
        have f2 : (2 : ℚ) ^ e2 = 2 ^ s2 * 2 ^ min e1 e2 := by
          rw [← zpow_natCast, ← zpow_add₀ (by norm_num)]
          congr 1
          omega
        rw [f1, f2]
        push_cast
        ring
      · rw [hq]
        have := mul_pos (lt_of_lt_of_le (Fl.zp_pos _) yl) (Fl.zp_pos k)
        have h3 : (2 : ℚ) ^ (-500 : ℤ) * 2 ≤ 2 ^ (-300 : ℤ) := by
          have : (2 : ℚ) = 2 ^ (1 : ℤ) := by norm_num
          nth_rw 2 [this]
          rw [zadd]
          exact zle (by norm_num)
        rw [le_div_iff₀ (by norm_num)]
        linarith
    have hz := nw q hqr
    rw [hs, hmean, sub_self, abs_zero] at hz
    have hw : (w : ℝ) = q := by linarith [abs_nonpos_iff.1 hz]
    have hy : ((y * 2 ^ k : ℚ) : ℝ) = q := by
      push_cast
      linarith
    have h4 : y * 2 ^ k = w := by
      have := hy.trans hw.symm
      exact_mod_cast this
    exact h4.symm

/-! ## What is read -/

/-- A stored float. -/
theorem ofBits_mid {b : ℕ} {a : ℚ} (h : Fl.ofBits b = .fin a) : Mid (-149) 128 a := by
  unfold Fl.ofBits at h
  split at h
  · split at h <;> cases h
  · rename_i hE
    have hm : b % 2 ^ 23 < 2 ^ 23 := Nat.mod_lt _ (by norm_num)
    have hE2 : b / 2 ^ 23 % 256 < 256 := Nat.mod_lt _ (by norm_num)
    generalize b % 2 ^ 23 = M at *
    generalize b / 2 ^ 23 % 256 = E at *
    have ha : a = (if 2 ^ 31 ≤ b then (-1 : ℚ) else 1) *
      (if E = 0 then (M : ℚ) * 2 ^ (-149 : ℤ) else ((2 ^ 23 + M : ℕ) : ℚ) * 2 ^ ((E : ℤ) - 150)) := (Fl.fin.inj h).symm
    have habs : |a| = if E = 0 then (M : ℚ) * 2 ^ (-149 : ℤ) else ((2 ^ 23 + M : ℕ) : ℚ) * 2 ^ ((E : ℤ) - 150) := by
      rw [ha, abs_mul]
      have h1 : |if 2 ^ 31 ≤ b then (-1 : ℚ) else 1| = 1 := by split <;> simp
      rw [h1, one_mul, abs_of_nonneg]
      split
      · exact mul_nonneg (by positivity) (Fl.zp_pos _).le
      · exact mul_nonneg (by positivity) (Fl.zp_pos _).le
    have key : ∀ (n : ℕ) (k : ℤ), 1 ≤ n → n ≤ 2 ^ 24 → -149 ≤ k → k ≤ 104 →
        (2 : ℚ) ^ (-149 : ℤ) ≤ n * 2 ^ k ∧ (n : ℚ) * 2 ^ k ≤ 2 ^ (128 : ℤ) := by
      intro n k h1 h2 k1 k2
      have h1' : (1 : ℚ) ≤ n := by exact_mod_cast h1
      have h2' : (n : ℚ) ≤ 2 ^ (24 : ℤ) := by exact_mod_cast h2
      constructor
      · refine le_trans (zle k1) ?_
        have := mul_le_mul_of_nonneg_right h1' (Fl.zp_pos k).le
        linarith
      · refine le_trans (mul_le_mul_of_nonneg_right h2' (Fl.zp_pos k).le) ?_
        rw [zadd]
        exact zle (by omega)
    by_cases hE0 : E = 0
    · rw [if_pos hE0] at habs
      rcases Nat.eq_zero_or_pos M with rfl | hM
      · left
        rw [Nat.cast_zero, zero_mul] at habs
        exact abs_eq_zero.1 habs
      · right
        rw [habs]
        exact key M _ hM (by omega) (by norm_num) (by norm_num)
    · right
      rw [if_neg hE0] at habs
      rw [habs]
      exact key _ _ (by omega) (by omega) (by omega) (by omega)

/-- The value that is read for a level `c`, a channel factor and two antenna factors, when the channel factor is scaled. -/
theorem read_scaled_channel {c G : Fl} {f : ℚ} {j : ℤ} (hc : c = .nan ∨ ∃ a, c = .fin a ∧ Mid (-149) 128 a)
    (hG : ∀ g, G = .fin g → Mid (-298) 256 g) (f0 : f ≠ 0) (m1 : Mid (-149) 128 f) (m1' : Mid (-149) 128 (f * 2 ^ j)) :
    (∀ y, Fl.cast Fl.r32 (Fl.mul Fl.r64 c (Fl.mul Fl.r64 (.fin f) G)) = .fin y → (2 : ℚ) ^ (-126 : ℤ) < |y| →
      |y| < 2 ^ (127 : ℤ) → (2 : ℚ) ^ (-126 : ℤ) < |y * 2 ^ j| → |y * 2 ^ j| < 2 ^ (127 : ℤ) →
      Fl.cast Fl.r32 (Fl.mul Fl.r64 c (Fl.mul Fl.r64 (.fin (f * 2 ^ j)) G)) = .fin (y * 2 ^ j)) ∧
    (Fl.cast Fl.r32 (Fl.mul Fl.r64 c (Fl.mul Fl.r64 (.fin f) G)) = .nan →
      Fl.cast Fl.r32 (Fl.mul Fl.r64 c (Fl.mul Fl.r64 (.fin (f * 2 ^ j)) G)) = .nan) := by
  have hp := Fl.zp_pos j
  rcases hc with rfl | ⟨a, rfl, ha⟩
  · exact ⟨fun y hy => by simp [Fl.mul, Fl.cast] at hy, fun _ => by simp [Fl.mul, Fl.cast]⟩
  · cases G with
    | fin g =>
      have hg := hG g rfl
      have prod : ∀ {u v : ℚ} {l1 h1 l2 h2 : ℤ}, Mid l1 h1 u → Mid l2 h2 v → Mid (l1 + l2) (h1 + h2) (u * v) := by
        intro u v l1 h1 l2 h2 hu hv
        rcases hu with rfl | ⟨u1, u2⟩
        · exact Or.inl (zero_mul _)
        · rcases hv with rfl | ⟨v1, v2⟩
          · exact Or.inl (mul_zero _)
          · right
            rw [abs_mul, ← zadd, ← zadd]
            exact ⟨mul_le_mul u1 v1 (Fl.zp_pos _).le (abs_nonneg _), mul_le_mul u2 v2 (abs_nonneg _) (Fl.zp_pos _).le⟩
      obtain ⟨F, F1, F2, -, F4, F5⟩ := r64_twin (k := j) (by norm_num) (by norm_num) (by norm_num) (prod m1 hg)
        (by rw [show f * g * 2 ^ j = f * 2 ^ j * g by ring]; exact prod m1' hg)
      obtain ⟨P, P1, P2, -, -, -⟩ := r64_twin (k := j) (by norm_num) (by norm_num) (by norm_num) (prod ha F4)
        (by rw [mul_assoc]; exact prod ha F5)
      have e1 : Fl.mul Fl.r64 (.fin a) (Fl.mul Fl.r64 (.fin f) (.fin g)) = .fin P := by
        simp only [Fl.mul, F1, P1]
      have e2 : Fl.mul Fl.r64 (.fin a) (Fl.mul Fl.r64 (.fin (f * 2 ^ j)) (.fin g)) = .fin (P * 2 ^ j) := by
        have : f * 2 ^ j * g = f * g * 2 ^ j := by ring
        simp only [Fl.mul, this, F2, ← mul_assoc, P2]
      rw [e1, e2]
      simp only [Fl.cast]
      refine ⟨fun y hy y1 y2 y1' y2' => r32_scaled hy y1 y2 y1' y2', fun hy => ?_⟩
      exfalso
      unfold Fl.r32 Fl.round at hy
      split at hy <;> cases hy
    | inf n =>
      have f0' : f * 2 ^ j ≠ 0 := mul_ne_zero f0 hp.ne'
      have es : decide (f * 2 ^ j < 0) = decide (f < 0) := by
        rw [decide_eq_decide]
        exact ⟨fun h => by
          by_contra hc
          exact absurd h (not_lt.2 (mul_nonneg (not_lt.1 hc) hp.le)), fun h => mul_neg_of_neg_of_pos h hp⟩
      have e : Fl.mul Fl.r64 (.fin (f * 2 ^ j)) (.inf n) = Fl.mul Fl.r64 (.fin f) (.inf n) := by
        simp only [Fl.mul, if_neg f0, if_neg f0', es]
      rw [e]
      refine ⟨fun y hy => ?_, id⟩
      exfalso
      simp only [Fl.mul, if_neg f0] at hy
      split at hy <;> cases hy
    | nan => exact ⟨fun y hy => by simp [Fl.mul, Fl.cast] at hy, fun _ => by simp [Fl.mul, Fl.cast]⟩

end Dysco.AF

namespace Dysco.Layout
open BytePacker TimeBlock Stochastic

variable {nR nPol nCh nAnt bits : Nat} {A : Nat → Nat × Nat} {D : Nat → Nat → Cx} {data data' : Block Cx}

/-- **C135** Data `D`, and the same data with the values of channel and polarisation `i` multiplied by `2 ^ j i`, with
antenna-frequency normalisation and the same dither values. Every channel and polarisation has a sample that counts and is not
zero, or none that counts, or does not change at all. Then
* one block is written exactly if the other is,
* all symbols and all antenna factors are the same in both blocks,
* the channel factor of `i` is multiplied by `2 ^ j i`, if the RMS of the channel and the stored factor are normal floats
  before and after,
* then so is every value that is read back and is a normal float before and after; NaN stays NaN. -/
theorem af_scaled {sq : Fl → Fl} (hsq : AF.SqrtMono sq) (hsp : AF.SqrtPow sq) {e : Encoder} {b l : Nat → ℚ} {L : ℚ}
    (hT : Table e b l L) (hl : ∀ i, i < e.n → Fl.Repr Fl.binary32 (l i) ∧ |l i| < 2 ^ (128 : ℤ))
    (hb : Supported bits) (hq : e.quantCount = 2 ^ bits) (hR : 0 < nR) (hR2 : nR ≤ 2 ^ 24) (hC : 0 < nCh)
    (hA : AF.AntennasBelow nR nAnt A) (j : Nat → ℤ) (h : Holds nR (nPol * nCh) A D data)
    (h' : Holds nR (nPol * nCh) A (fun r i => (D r i).scale2 (j i)) data')
    (hF : ∀ r i, r < nR → i < nPol * nCh → FloatVis (D r i))
    (hF' : ∀ r i, r < nR → i < nPol * nCh → FloatVis ((D r i).scale2 (j i)))
    (hall : ∀ i, i < nPol * nCh → AF.Scalable (j i) (fun r => D r i) nR)
    (dith : Nat → Nat) (fuel : Nat) {packed packed' : Mem 8} {unpacked unpacked' out out' : Buf Nat}
    (hp : packed.len = blockSize (nPol * (nCh + nAnt)) (symbolCount nR nPol nCh) bits)
    (hp' : packed'.len = blockSize (nPol * (nCh + nAnt)) (symbolCount nR nPol nCh) bits)
    (hu : unpacked.len = symbolCount nR nPol nCh) (hu' : unpacked'.len = symbolCount nR nPol nCh)
    (ho : out.len = symbolCount nR nPol nCh) (ho' : out'.len = symbolCount nR nPol nCh)
    (dflt dflt' : DataRow Cx) (rows rows' : Block Cx) :
    ((∃ d, writeBlock (encData .af sq e nPol nCh nAnt dith fuel data) bits (nPol * (nCh + nAnt))
        (symbolCount nR nPol nCh) packed unpacked = .ok d) ↔
      ∃ d', writeBlock (encData .af sq e nPol nCh nAnt dith fuel data') bits (nPol * (nCh + nAnt))
        (symbolCount nR nPol nCh) packed' unpacked' = .ok d') ∧
    ∀ d d', writeBlock (encData .af sq e nPol nCh nAnt dith fuel data) bits (nPol * (nCh + nAnt))
        (symbolCount nR nPol nCh) packed unpacked = .ok d →
      writeBlock (encData .af sq e nPol nCh nAnt dith fuel data') bits (nPol * (nCh + nAnt))
        (symbolCount nR nPol nCh) packed' unpacked' = .ok d' →
      ∃ x x',
      readBlock (decData .af e nPol nCh nAnt A) bits (nPol * (nCh + nAnt)) (symbolCount nR nPol nCh) nR dflt d out rows = .ok x ∧
      readBlock (decData .af e nPol nCh nAnt A) bits (nPol * (nCh + nAnt)) (symbolCount nR nPol nCh) nR dflt' d' out' rows' =
        .ok x' ∧
      (∀ k, k < nR * (nPol * nCh) * 2 → symbolAt bits (4 * (nPol * (nCh + nAnt))) d' k =
        symbolAt bits (4 * (nPol * (nCh + nAnt))) d k) ∧
      (∀ p a, p < nPol → a < nAnt → (metaView (nPol * (nCh + nAnt)) d').get (nPol * nCh + (nAnt * p + a)) =
        (metaView (nPol * (nCh + nAnt)) d).get (nPol * nCh + (nAnt * p + a))) ∧
      ∀ i, i < nPol * nCh → ¬ AF.Tiny (Fl.cast Fl.r32 (AF.rms Fl.r64 sq (AF.measFold Fl.r64 (fun r => D r i) nR))) →
        ¬ AF.Tiny (Fl.cast Fl.r32 (AF.rms Fl.r64 sq (AF.measFold Fl.r64 (fun r => (D r i).scale2 (j i)) nR))) →
        ¬ AF.Tiny ((metaView (nPol * (nCh + nAnt)) d).get i) → ¬ AF.Tiny ((metaView (nPol * (nCh + nAnt)) d').get i) →
        ∃ f, (metaView (nPol * (nCh + nAnt)) d).get i = .fin f ∧
          (metaView (nPol * (nCh + nAnt)) d').get i = .fin (f * 2 ^ j i) ∧
          ∀ r, r < nR →
            (∀ y, ((x.get r).vis.get i).re = .fin y → (2 : ℚ) ^ (-126 : ℤ) < |y| → |y| < 2 ^ (127 : ℤ) →
              (2 : ℚ) ^ (-126 : ℤ) < |y * 2 ^ j i| → |y * 2 ^ j i| < 2 ^ (127 : ℤ) →
              ((x'.get r).vis.get i).re = .fin (y * 2 ^ j i)) ∧
            (∀ y, ((x.get r).vis.get i).im = .fin y → (2 : ℚ) ^ (-126 : ℤ) < |y| → |y| < 2 ^ (127 : ℤ) →
              (2 : ℚ) ^ (-126 : ℤ) < |y * 2 ^ j i| → |y * 2 ^ j i| < 2 ^ (127 : ℤ) →
              ((x'.get r).vis.get i).im = .fin (y * 2 ^ j i)) ∧
            (((x.get r).vis.get i).re = .nan → ((x'.get r).vis.get i).re = .nan) ∧
            (((x.get r).vis.get i).im = .nan → ((x'.get r).vis.get i).im = .nan) := by
  have hcount : nPol * (nCh + nAnt) = nPol * nCh + nAnt * nPol := by rw [Nat.mul_add, Nat.mul_comm nPol nAnt]
  have hrms : ∀ i, i < nPol * nCh → AF.rms Fl.r64 sq (AF.measFold Fl.r64 (fun r => (D r i).scale2 (j i)) nR) =
      (AF.rms Fl.r64 sq (AF.measFold Fl.r64 (fun r => D r i) nR)).scale2 (j i) := fun i hi =>
    AF.rms_scaled (v := fun r => D r i) hsq hsp hR2 (fun r hr => hF r i hr hi) (fun r hr => hF' r i hr hi)
  have tw := AF.encode_twin (RF := Fl.r32) (RD := Fl.r64) (sq := sq) (maxLevel := e.maxQuantity) (hT.total Fl.r32 true)
    (fun i m m' f _ hm => AF.firstPair_div f hm)
    (AF.lastPair_stable (fun i => AF.rms Fl.r64 sq (AF.measFold Fl.r64 (fun r => D r i) nR)) j (nPol * nCh)) hC hA hR h h'
    (fun r i hr hi => AF.divRms_scaled (v := fun r => D r i) hsq hsp hR2 (fun r hr => hF r i hr hi) (fun r hr => hF' r i hr hi)
      (hall i hi) hr)
    (fun i hi => ⟨rfl, by rw [hrms i hi]⟩) dith fuel
    (metaB := ⟨nPol * (nCh + nAnt), fun _ => .nan⟩) (metaB' := ⟨nPol * (nCh + nAnt), fun _ => .nan⟩)
    (sym := ⟨symbolCount nR nPol nCh, fun _ => 0⟩) (sym' := ⟨symbolCount nR nPol nCh, fun _ => 0⟩)
    (by simp only; omega) (by simp only; omega) (by simp only; rw [symbolCount_eq]) (by simp only; rw [symbolCount_eq])
  refine ⟨?_, fun d d' e1 e1' => ?_⟩
  · rw [af_written_iff sq hT hb hq hR hC hA h dith fuel hp hu, af_written_iff sq hT hb hq hR hC hA h' dith fuel hp' hu']
    rcases tw with ⟨a1, a2⟩ | ⟨m, s, m', s', a1, a2, -⟩
    · rw [a1, a2]
    · rw [a1, a2]
      exact ⟨fun _ => ⟨m', s', rfl⟩, fun _ => ⟨m, s, rfl⟩⟩
  · obtain ⟨x, m, s, r1, a1, s1, m1, v1⟩ := af_block sq hT hb hq hR hC hA h dith fuel hp hu ho dflt rows e1
    obtain ⟨x', m', s', r1', a1', s1', m1', v1'⟩ := af_block sq hT hb hq hR hC hA h' dith fuel hp' hu' ho' dflt' rows' e1'
    rcases tw with ⟨t1, -⟩ | ⟨n, u, n', u', t1, t2, g1, g2, g3⟩
    · rw [a1] at t1
      cases t1
    · rw [a1] at t1
      rw [a1'] at t2
      obtain ⟨rfl, rfl⟩ : m = n ∧ s = u := by simpa using t1
      obtain ⟨rfl, rfl⟩ : m' = n' ∧ s' = u' := by simpa using t2
      refine ⟨x, x', r1, r1', fun k hk => ?_, fun p a hp0 ha => ?_, fun i hi => ?_⟩
      · have hk' : k < symbolCount nR nPol nCh := by rw [symbolCount_eq]; exact hk
        rw [s1 k hk', s1' k hk', g3 k hk]
      · rw [m1 _ (ant_index_lt ha hp0), m1' _ (ant_index_lt ha hp0), g2 p a hp0 ha]
      · have hi2 : i < nPol * (nCh + nAnt) := by omega
        intro n1 n2 n3 n4
        rw [hrms i hi] at n2
        rw [m1 i hi2] at n3
        rw [m1' i hi2] at n4
        have hs := ((g1 i hi n1 n2).resolve_left n3).resolve_left n4
        obtain ⟨f, ef, fl⟩ := AF.not_tiny n3
        rw [ef] at hs
        have hmid : AF.Mid (-149) 128 f := by
          rw [← m1 i hi2] at ef
          unfold metaView at ef
          simp only [if_pos hi2] at ef
          exact AF.ofBits_mid ef
        have hmid' : AF.Mid (-149) 128 (f * 2 ^ j i) := by
          have ef' : (metaView (nPol * (nCh + nAnt)) d').get i = .fin (f * 2 ^ j i) := (m1' i hi2).trans hs
          unfold metaView at ef'
          simp only [if_pos hi2] at ef'
          exact AF.ofBits_mid ef'
        have hf0 : f ≠ 0 := by
          rintro rfl
          rw [abs_zero] at fl
          exact absurd fl (not_lt.2 (Fl.zp_pos _).le)
        refine ⟨f, by rw [m1 i hi2, ef], by rw [m1' i hi2, hs]; rfl, fun r hr => ?_⟩
        have hpol : 0 < nPol := Nat.pos_of_ne_zero (by rintro rfl; simp at hi)
        have hmod : i % nPol < nPol := Nat.mod_lt _ hpol
        have hfl : ∀ p a, p < nPol → a < nAnt → ∀ g, m.get (nPol * nCh + (nAnt * p + a)) = .fin g → AF.Mid (-149) 128 g := by
          intro p a hp0 ha g hg
          have hlt := ant_index_lt (nCh := nCh) ha hp0
          rw [← m1 _ hlt] at hg
          unfold metaView at hg
          simp only [if_pos hlt] at hg
          exact AF.ofBits_mid hg
        have hG : ∀ g, Fl.mul Fl.r64 (m.get (nPol * nCh + (nAnt * (i % nPol) + (A r).1)))
            (m.get (nPol * nCh + (nAnt * (i % nPol) + (A r).2))) = .fin g → AF.Mid (-298) 256 g := by
          intro g hg
          cases h1 : m.get (nPol * nCh + (nAnt * (i % nPol) + (A r).1)) with
          | fin g1 =>
            cases h2 : m.get (nPol * nCh + (nAnt * (i % nPol) + (A r).2)) with
            | fin g2 =>
              obtain ⟨q, q1, q2⟩ := (hfl _ _ hmod (hA r hr).1 g1 h1).mul (hfl _ _ hmod (hA r hr).2 g2 h2) (by norm_num)
                (by norm_num) (by norm_num)
              rw [h1, h2] at hg
              simp only [Fl.mul] at hg
              rw [q1] at hg
              cases hg
              exact q2
            | inf n => rw [h1, h2] at hg; simp only [Fl.mul] at hg; split at hg <;> cases hg
            | nan => rw [h1, h2] at hg; cases hg
          | inf n =>
            rw [h1] at hg
            cases h2 : m.get (nPol * nCh + (nAnt * (i % nPol) + (A r).2)) with
            | fin g2 => rw [h2] at hg; simp only [Fl.mul] at hg; split at hg <;> cases hg
            | inf n => rw [h2] at hg; cases hg
            | nan => rw [h2] at hg; cases hg
          | nan => rw [h1] at hg; cases hg
        have hlt : (r * (nPol * nCh) + i) * 2 + 1 < nR * (nPol * nCh) * 2 := by
          have := flat_lt hr hi
          omega
        have hlev : ∀ k, k < nR * (nPol * nCh) * 2 → e.level (s.get k) = .nan ∨
            ∃ a, e.level (s.get k) = .fin a ∧ AF.Mid (-149) 128 a := by
          intro k hk
          rcases Nat.lt_or_ge (s.get k) e.n with hsk | hsk
          · exact Or.inr ⟨_, hT.levels.eq _ hsk, AF.mid_float (hl _ hsk)⟩
          · left
            have hk' : k < symbolCount nR nPol nCh := by rw [symbolCount_eq]; exact hk
            have h1 := symbolAt_lt (bits := bits) (4 * (nPol * (nCh + nAnt))) d k
            rw [s1 k hk', ← hq, Encoder.quantCount] at h1
            obtain h2 : s.get k = e.n := by omega
            rw [h2, hT.levels.slot]
        have q1 := AF.read_scaled_channel (hlev ((r * (nPol * nCh) + i) * 2) (by omega)) hG hf0 hmid hmid'
        have q2 := AF.read_scaled_channel (hlev _ hlt) hG hf0 hmid hmid'
        have hf : factorOf .af nPol nCh nAnt A m r i = Fl.mul Fl.r64 (.fin f)
            (Fl.mul Fl.r64 (m.get (nPol * nCh + (nAnt * (i % nPol) + (A r).1)))
              (m.get (nPol * nCh + (nAnt * (i % nPol) + (A r).2)))) := by
          simp only [factorOf, ef]
        have hf' : factorOf .af nPol nCh nAnt A m' r i = Fl.mul Fl.r64 (.fin (f * 2 ^ j i))
            (Fl.mul Fl.r64 (m.get (nPol * nCh + (nAnt * (i % nPol) + (A r).1)))
              (m.get (nPol * nCh + (nAnt * (i % nPol) + (A r).2)))) := by
          simp only [factorOf, hs, g2 _ _ hmod (hA r hr).1, g2 _ _ hmod (hA r hr).2]
          rfl
        rw [v1 r i hr hi, v1' r i hr hi]
        simp only [valueOf, hf, hf', g3 _ hlt, g3 _ (show (r * (nPol * nCh) + i) * 2 < nR * (nPol * nCh) * 2 by omega)]
        exact ⟨q1.1, q2.1, q1.2, q2.2⟩

/-- The same in a form that can be evaluated. Not in the code. -/
def normalFloat : Fl → Bool
  | .fin g => decide ((2 : ℚ) ^ (-126 : ℤ) < |g|)
  | _ => false

theorem normalFloat_spec {x : Fl} (h : normalFloat x = true) : ¬ AF.Tiny x := by
  intro hl
  cases x with
  | fin g => exact absurd (of_decide_eq_true h) (not_lt.2 (hl g rfl))
  | inf n => cases h
  | nan => cases h

/-- The powers of the example below. Not in the code. -/
def examplePower (i : Nat) : ℤ := if i = 0 then 3 else -5

theorem moderate_floats (r i : Nat) : FloatVis (AF.moderateVis r i) ∧ FloatVis ((AF.moderateVis r i).scale2 (examplePower i)) := by
  have key : ∀ (m k : ℤ), -149 ≤ k → |m| ≤ 2 ^ 24 → k ≤ 100 → ∀ a : ℚ, a = m * 2 ^ k →
      Fl.Repr Fl.binary32 a ∧ |a| < 2 ^ (128 : ℤ) := by
    rintro m k h1 h2 h3 a rfl
    refine ⟨⟨m, k, h1, h2, rfl⟩, ?_⟩
    have hm : |(m : ℚ)| ≤ 2 ^ (24 : ℤ) := by exact_mod_cast h2
    rw [abs_mul, abs_of_pos (Fl.zp_pos k)]
    refine lt_of_le_of_lt (mul_le_mul_of_nonneg_right hm (Fl.zp_pos k).le) ?_
    rw [AF.zadd]
    exact zpow_lt_zpow_right₀ (by norm_num) (by omega)
  have all : ∀ j : ℤ, j = 3 ∨ j = -5 ∨ j = 0 → ∀ a : ℚ, a ∈ [3, -4, 0, 1 / 1024, 2, 1000] →
      Fl.Repr Fl.binary32 (a * 2 ^ j) ∧ |a * 2 ^ j| < 2 ^ (128 : ℤ) := by
    intro j hj a ha
    have hj1 : -5 ≤ j ∧ j ≤ 3 := by omega
    simp only [List.mem_cons, List.not_mem_nil, or_false] at ha
    rcases ha with rfl | rfl | rfl | rfl | rfl | rfl
    · exact key 3 j (by omega) (by norm_num) (by omega) _ (by norm_num)
    · exact key (-4) j (by omega) (by norm_num) (by omega) _ (by norm_num)
    · exact key 0 j (by omega) (by norm_num) (by omega) _ (by norm_num)
    · refine key 1 (j - 10) (by omega) (by norm_num) (by omega) _ ?_
      rw [zpow_sub₀ (by norm_num)]
      norm_num
      ring
    · exact key 2 j (by omega) (by norm_num) (by omega) _ (by norm_num)
    · exact key 1000 j (by omega) (by norm_num) (by omega) _ (by norm_num)
  have mem : ∀ a, (AF.moderateVis r i).re = .fin a ∨ (AF.moderateVis r i).im = .fin a → a ∈ [3, -4, 0, 1 / 1024, 2, 1000] := by
    intro a ha
    unfold AF.moderateVis at ha
    simp only [List.mem_cons, List.not_mem_nil, or_false]
    split at ha
    · split at ha
      · rcases ha with ha | ha <;> cases ha <;> simp
      · rcases ha with ha | ha <;> cases ha <;> simp
    · split at ha
      · split at ha
        · rcases ha with ha | ha <;> cases ha
        · rcases ha with ha | ha
          all_goals
            cases ha
            try simp
      · rcases ha with ha | ha
        all_goals
          cases ha
          try simp
  constructor
  · intro a ha
    have := all 0 (by simp) a (mem a ha)
    simpa using this
  · intro a ha
    have hj : examplePower i = 3 ∨ examplePower i = -5 ∨ examplePower i = 0 := by
      unfold examplePower
      split <;> simp
    have inv : ∀ x : Fl, x.scale2 (examplePower i) = .fin a → ∃ b, x = .fin b ∧ a = b * 2 ^ examplePower i := by
      intro x hx
      cases x with
      | fin b => exact ⟨b, rfl, (Fl.fin.inj hx).symm⟩
      | inf n => cases hx
      | nan => cases hx
    rcases ha with ha | ha
    · obtain ⟨b, e, rfl⟩ := inv _ ha
      exact all _ hj b (mem b (Or.inl e))
    · obtain ⟨b, e, rfl⟩ := inv _ ha
      exact all _ hj b (mem b (Or.inr e))

/-- The encoded blocks of the example. Not in the code. -/
def exampleBlock (v : Nat → Nat → Cx) : Option (Option (Buf Fl × Buf Nat)) :=
  AF.encode Fl.r32 Fl.r64 AF.coarseSqrt (encFn Fl.r32 Row.smallTable true) Row.smallTable.maxQuantity 1 2 2 (fun _ => 0) 1
    ⟨2, fun r => ⟨0, 1, ⟨2, v r⟩⟩⟩ ⟨1 * (2 + 2), fun _ => .nan⟩ ⟨symbolCount 2 1 2, fun _ => 0⟩

/-- Two rows and two channels, with a NaN sample and an infinity. The first channel times 8 and the second divided by 32: both
blocks are written, and the stored channel factors are multiplied by 8 and divided by 32. -/
example (packed packed' : Mem 8) (hl : packed.len = blockSize 4 8 2) (hl' : packed'.len = blockSize 4 8 2) :
    ∃ d d' f g, writeBlock (encData .af AF.coarseSqrt Row.smallTable 1 2 2 (fun _ => 0) 1
        ⟨2, fun r => ⟨0, 1, ⟨2, AF.moderateVis r⟩⟩⟩) 2 4 8 packed ⟨8, fun _ => 0⟩ = .ok d ∧
      writeBlock (encData .af AF.coarseSqrt Row.smallTable 1 2 2 (fun _ => 0) 1
        ⟨2, fun r => ⟨0, 1, ⟨2, fun i => (AF.moderateVis r i).scale2 (examplePower i)⟩⟩⟩) 2 4 8 packed' ⟨8, fun _ => 0⟩ = .ok d' ∧
      (metaView 4 d).get 0 = .fin f ∧ (metaView 4 d').get 0 = .fin (f * 2 ^ (3 : ℤ)) ∧
      (metaView 4 d).get 1 = .fin g ∧ (metaView 4 d').get 1 = .fin (g * 2 ^ (-5 : ℤ)) := by
  have hA : AF.AntennasBelow 2 2 (fun _ => (0, 1)) := fun _ _ => ⟨by norm_num, by norm_num⟩
  have h : Holds 2 (1 * 2) (fun _ => (0, 1)) AF.moderateVis ⟨2, fun r => ⟨0, 1, ⟨2, AF.moderateVis r⟩⟩⟩ :=
    ⟨rfl, fun _ _ => rfl, fun _ _ => rfl, fun _ _ _ _ => rfl⟩
  have h' : Holds 2 (1 * 2) (fun _ => (0, 1)) (fun r i => (AF.moderateVis r i).scale2 (examplePower i))
      ⟨2, fun r => ⟨0, 1, ⟨2, fun i => (AF.moderateVis r i).scale2 (examplePower i)⟩⟩⟩ :=
    ⟨rfl, fun _ _ => rfl, fun _ _ => rfl, fun _ _ _ _ => rfl⟩
  have hall : ∀ i, i < 1 * 2 → AF.Scalable (examplePower i) (fun r => AF.moderateVis r i) 2 := by
    intro i hi
    refine Or.inr (Or.inl ⟨0, by decide, ?_⟩)
    have hi' : i = 0 ∨ i = 1 := by omega
    rcases hi' with rfl | rfl
    · exact ⟨⟨3, -4, rfl⟩, by simp [AF.moderateVis]⟩
    · exact ⟨⟨0, 1 / 1024, rfl⟩, by simp [AF.moderateVis]⟩
  have hlev : ∀ i, i < Row.smallTable.n → Fl.Repr Fl.binary32 ((i : ℚ) - 1) ∧ |(i : ℚ) - 1| < 2 ^ (128 : ℤ) := by
    intro i hi
    have hi' : i = 0 ∨ i = 1 ∨ i = 2 := by
      have : i < 3 := hi
      omega
    have h1 : Fl.Repr Fl.binary32 (1 : ℚ) := by
      have := Fl.repr32_nat (n := 1) (by norm_num)
      simpa using this
    rcases hi' with rfl | rfl | rfl
    · refine ⟨?_, by norm_num⟩
      have := h1.neg
      norm_num at this ⊢
      exact this
    · refine ⟨?_, by norm_num⟩
      norm_num
      exact Fl.Repr.zero _
    · refine ⟨?_, by norm_num⟩
      norm_num
      exact h1
  have ev : (match exampleBlock AF.moderateVis with
      | some (some (m, _)) => normalFloat (m.get 0) && normalFloat (m.get 1)
      | _ => false) = true := by decide +kernel
  have ev' : (match exampleBlock (fun r i => (AF.moderateVis r i).scale2 (examplePower i)) with
      | some (some (m, _)) => normalFloat (m.get 0) && normalFloat (m.get 1)
      | _ => false) = true := by decide +kernel
  have rn : ∀ i, i < 2 → normalFloat (Fl.cast Fl.r32 (AF.rms Fl.r64 AF.coarseSqrt
        (AF.measFold Fl.r64 (fun r => AF.moderateVis r i) 2))) = true ∧
      normalFloat (Fl.cast Fl.r32 (AF.rms Fl.r64 AF.coarseSqrt
        (AF.measFold Fl.r64 (fun r => (AF.moderateVis r i).scale2 (examplePower i)) 2))) = true := by decide +kernel
  have sc := af_scaled (nAnt := 2) (bits := 2) (A := fun _ => (0, 1)) AF.coarseSqrt_mono AF.coarseSqrt_pow Row.smallTable_ok
    hlev (Or.inl rfl) rfl (by decide) (by decide) (by decide) hA examplePower h h' (fun r i _ _ => (moderate_floats r i).1)
    (fun r i _ _ => (moderate_floats r i).2) hall (fun _ => 0) 1 hl hl' (unpacked := ⟨8, fun _ => 0⟩)
    (unpacked' := ⟨8, fun _ => 0⟩) (out := ⟨8, fun _ => 0⟩) (out' := ⟨8, fun _ => 0⟩)
    rfl rfl rfl rfl ⟨0, 0, ⟨0, fun _ => ⟨.nan, .nan⟩⟩⟩ ⟨0, 0, ⟨0, fun _ => ⟨.nan, .nan⟩⟩⟩
    ⟨0, fun _ => ⟨0, 0, ⟨0, fun _ => ⟨.nan, .nan⟩⟩⟩⟩ ⟨0, fun _ => ⟨0, 0, ⟨0, fun _ => ⟨.nan, .nan⟩⟩⟩⟩
  have key : ∀ {v : Nat → Nat → Cx} {pk : Mem 8}, pk.len = blockSize 4 8 2 →
      Holds 2 (1 * 2) (fun _ => (0, 1)) v ⟨2, fun r => ⟨0, 1, ⟨2, v r⟩⟩⟩ →
      (match exampleBlock v with
        | some (some (m, _)) => normalFloat (m.get 0) && normalFloat (m.get 1)
        | _ => false) = true →
      ∃ d, writeBlock (encData .af AF.coarseSqrt Row.smallTable 1 2 2 (fun _ => 0) 1 ⟨2, fun r => ⟨0, 1, ⟨2, v r⟩⟩⟩)
          2 4 8 pk ⟨8, fun _ => 0⟩ = .ok d ∧
        ¬ AF.Tiny ((metaView 4 d).get 0) ∧ ¬ AF.Tiny ((metaView 4 d).get 1) := by
    intro v pk hpk hv hev
    have hs : ∃ m s, exampleBlock v = some (some (m, s)) := by
      split at hev
      · rename_i m s e
        exact ⟨m, s, e⟩
      · cases hev
    obtain ⟨d, hd⟩ := (af_written_iff (nAnt := 2) (bits := 2) AF.coarseSqrt Row.smallTable_ok (Or.inl rfl) rfl (by decide)
      (by decide) hA hv (fun _ => 0) 1 (packed := pk) (unpacked := ⟨8, fun _ => 0⟩) hpk rfl).mpr hs
    obtain ⟨_, m, s, -, a1, -, m1, -⟩ := af_block (nAnt := 2) (bits := 2) AF.coarseSqrt Row.smallTable_ok (Or.inl rfl) rfl
      (by decide) (by decide) hA hv (fun _ => 0) 1 hpk rfl (out := ⟨8, fun _ => 0⟩) rfl ⟨0, 0, ⟨0, fun _ => ⟨.nan, .nan⟩⟩⟩
      ⟨0, fun _ => ⟨0, 0, ⟨0, fun _ => ⟨.nan, .nan⟩⟩⟩⟩ hd
    have a1' : exampleBlock v = some (some (m, s)) := a1
    rw [a1'] at hev
    simp only [Bool.and_eq_true] at hev
    refine ⟨d, hd, ?_, ?_⟩
    · have := m1 0 (by decide)
      rw [show (metaView 4 d).get 0 = m.get 0 from this]
      exact normalFloat_spec hev.1
    · have := m1 1 (by decide)
      rw [show (metaView 4 d).get 1 = m.get 1 from this]
      exact normalFloat_spec hev.2
  obtain ⟨d, hd, n0, n1⟩ := key hl h ev
  obtain ⟨d', hd', n0', n1'⟩ := key hl' h' ev'
  obtain ⟨_, _, -, -, -, -, g⟩ := sc.2 d d' hd hd'
  obtain ⟨f, f1, f2, -⟩ := g 0 (by decide) (normalFloat_spec (rn 0 (by decide)).1) (normalFloat_spec (rn 0 (by decide)).2) n0 n0'
  obtain ⟨f', f1', f2', -⟩ := g 1 (by decide) (normalFloat_spec (rn 1 (by decide)).1) (normalFloat_spec (rn 1 (by decide)).2)
    n1 n1'
  exact ⟨d, d', f, f', hd, hd', f1, f2, f1', f2'⟩

end Dysco.Layout
