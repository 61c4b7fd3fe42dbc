import Verif.MeanRow
import Verif.TwisterProps
import Mathlib.Algebra.BigOperators.Ring.Finset
import Mathlib.Algebra.Order.BigOperators.Ring.Finset

/-!
# C144: averaging removes the error of dithering

A single value that is read back is off by up to a step of the quantiser. The errors of samples that are stored near each other
are independent over the states of the generator, so the mean square error of their average falls with their number.
-/

namespace Dysco.Twister

/-- The sum over all states of a function of the words that matter. -/
theorem sum_words (F : (Fin 623 → Word) → ℚ) (k : Nat) :
    ∑ s : Gen, F (fun i => output s (k + i)) = 2 ^ 32 * ∑ w, F w := by
  have e : ∀ s : Gen, F (fun i => output s (k + i)) = F (fun i => output (ofCore (core s)) (k + i)) := by
    intro s
    congr 1
    funext i
    rw [output_core, output_core, core_ofCore]
  rw [Finset.sum_congr rfl fun s _ => e s, sum_core fun r => F (fun i => output (ofCore r) (k + i)),
    (outputs_bijective k).sum_comp fun p : Core => F p.2, Fintype.sum_prod_type]
  show (2 : ℚ) ^ 31 * ∑ _b : Bool, ∑ w, F w = 2 ^ 32 * ∑ w, F w
  rw [Finset.sum_const, Finset.card_univ, Fintype.card_bool, nsmul_eq_mul]
  generalize ∑ w, F w = S
  push_cast
  ring

theorem stateMean_words (F : (Fin 623 → Word) → ℚ) (k : Nat) :
    stateMean (fun s => F (fun i => output s (k + i))) = (∑ w, F w) / Fintype.card (Fin 623 → Word) := by
  have h1 := sum_words (fun _ => 1) k
  simp only [Finset.sum_const, Finset.card_univ, nsmul_eq_mul, mul_one] at h1
  unfold stateMean
  rw [sum_words F k, h1]
  exact mul_div_mul_left _ _ (by norm_num)

/-- **C144** Any 623 outputs in a row, after any number of others, are independent over all states of the generator. -/
theorem outputs_independent (k : Nat) (f : Fin 623 → Word → ℚ) :
    stateMean (fun s => ∏ i : Fin 623, f i (output s (k + i))) = ∏ i : Fin 623, stateMean fun s => f i (output s (k + i)) := by
  rw [stateMean_words (fun w => ∏ i, f i (w i)) k, ← Fintype.prod_sum, Fintype.card_fun, card_word]
  have e : ∀ i : Fin 623, (stateMean fun s => f i (output s (k + i))) = (∑ v, f i v) / 2 ^ 32 := fun i => output_uniform _ _
  simp only [e]
  rw [Finset.prod_div_distrib, Finset.prod_const, Finset.card_univ]
  push_cast
  rfl

theorem stateMean_one : stateMean (fun _ => 1) = 1 := by
  have hpos : (0 : ℚ) < Fintype.card Gen := by
    have : 0 < Fintype.card Gen := Fintype.card_pos
    exact_mod_cast this
  unfold stateMean
  rw [Finset.sum_const, Finset.card_univ, nsmul_eq_mul, mul_one, div_self hpos.ne']

theorem stateMean_sum {α : Type} (J : Finset α) (F : α → Gen → ℚ) :
    stateMean (fun s => ∑ j ∈ J, F j s) = ∑ j ∈ J, stateMean (F j) := by
  unfold stateMean
  rw [Finset.sum_comm, Finset.sum_div]

/-- Two of these outputs are uncorrelated. -/
theorem outputs_pair (k : Nat) {i j : Fin 623} (h : i ≠ j) (f g : Word → ℚ) :
    stateMean (fun s => f (output s (k + i)) * g (output s (k + j))) =
      stateMean (fun s => f (output s (k + i))) * stateMean (fun s => g (output s (k + j))) := by
  have key := outputs_independent k fun l => if l = i then f else if l = j then g else fun _ => 1
  have two : ∀ F : Fin 623 → ℚ, (∀ l, l ≠ i → l ≠ j → F l = 1) → ∏ l, F l = F i * F j := fun F hF =>
    Finset.prod_eq_mul i j h (fun l _ hl => hF l hl.1 hl.2) (fun hn => absurd (Finset.mem_univ _) hn)
      (fun hn => absurd (Finset.mem_univ _) hn)
  rw [two _ (fun l h1 h2 => by rw [if_neg h1, if_neg h2]; exact stateMean_one)] at key
  rw [if_pos rfl, if_neg h.symm, if_pos rfl] at key
  rw [← key]
  refine congrArg stateMean (funext fun s => ?_)
  rw [two _ (fun l h1 h2 => by rw [if_neg h1, if_neg h2]), if_pos rfl, if_neg h.symm, if_pos rfl]

/-- Two dither values of different symbols that are less than 623 apart are uncorrelated. -/
theorem dither_pair {sample : Word → Nat} (hs : Fair sample) (k w : Nat) {i j : Nat} (h : i ≠ j) (hi : w ≤ i ∧ i < w + 623)
    (hj : w ≤ j ∧ j < w + 623) (f g : Nat → ℚ) :
    stateMean (fun s => f (sample (output s (k + i))) * g (sample (output s (k + j)))) = Row.mean f * Row.mean g := by
  have key := outputs_pair (k + w) (i := ⟨i - w, by omega⟩) (j := ⟨j - w, by omega⟩) (fun e => h (by
    have := congrArg Fin.val e
    simp only at this
    omega)) (fun v => f (sample v)) (fun v => g (sample v))
  have ei : k + w + (i - w) = k + i := by omega
  have ej : k + w + (j - w) = k + j := by omega
  simp only [ei, ej] at key
  rw [key, dither_uniform hs, dither_uniform hs]

/-- The mean of numbers below a bound. -/
theorem mean_le {y : Nat → ℚ} {t : ℚ} (h : ∀ m, m < 2 ^ 31 → y m ≤ t) : Row.mean y ≤ t := by
  unfold Row.mean
  rw [div_le_iff₀ (by norm_num)]
  refine le_trans (Finset.sum_le_sum fun m hm => h m (Finset.mem_range.1 hm)) ?_
  rw [Finset.sum_const, Finset.card_range, nsmul_eq_mul, mul_comm]
  push_cast
  exact le_rfl

theorem mean_sub (y : Nat → ℚ) (a : ℚ) : Row.mean (fun m => y m - a) = Row.mean y - a := by
  unfold Row.mean
  rw [Finset.sum_sub_distrib, Finset.sum_const, Finset.card_range, nsmul_eq_mul, sub_div]
  congr 1
  push_cast
  exact mul_div_cancel_left₀ a (by norm_num)

/-- The mean square of the sum of the errors of some symbols that are less than 623 apart. -/
theorem square_sum {sample : Word → Nat} (hs : Fair sample) (k w : Nat) {J : Finset Nat} (hJ : ∀ j ∈ J, w ≤ j ∧ j < w + 623)
    {z : Nat → Nat → ℚ} {β : Nat → ℚ} {ε : ℚ} (hβ : ∀ j ∈ J, |Row.mean (z j)| ≤ β j)
    (hε : ∀ j ∈ J, ∀ m, m < 2 ^ 31 → |z j m| ≤ ε) :
    stateMean (fun s => (∑ j ∈ J, z j (sample (output s (k + j)))) ^ 2) ≤
      (∑ j ∈ J, β j) ^ 2 + J.card * ε ^ 2 := by
  have e : (fun s => (∑ j ∈ J, z j (sample (output s (k + j)))) ^ 2) =
      fun s => ∑ p ∈ J ×ˢ J, z p.1 (sample (output s (k + p.1))) * z p.2 (sample (output s (k + p.2))) := by
    funext s
    rw [sq, Finset.sum_mul_sum, Finset.sum_product]
  rw [e, stateMean_sum]
  have hp : ∀ p ∈ J ×ˢ J, stateMean (fun s => z p.1 (sample (output s (k + p.1))) * z p.2 (sample (output s (k + p.2)))) ≤
      β p.1 * β p.2 + if p.1 = p.2 then ε ^ 2 else 0 := by
    rintro ⟨i, j⟩ hp
    obtain ⟨hi, hj⟩ := Finset.mem_product.1 hp
    by_cases h : i = j
    · subst h
      simp only [if_true]
      rw [dither_uniform hs (k + i) fun m => z i m * z i m]
      have : Row.mean (fun m => z i m * z i m) ≤ ε ^ 2 := mean_le fun m hm => by
        rw [← sq, ← sq_abs]
        exact pow_le_pow_left₀ (abs_nonneg _) (hε i hi m hm) 2
      have := mul_self_nonneg (β i)
      linarith
    · simp only [h, if_false, add_zero]
      rw [dither_pair hs k w h (hJ i hi) (hJ j hj)]
      refine le_trans (le_abs_self _) ?_
      rw [abs_mul]
      exact mul_le_mul (hβ i hi) (hβ j hj) (abs_nonneg _) (le_trans (abs_nonneg _) (hβ i hi))
  refine le_trans (Finset.sum_le_sum hp) (le_of_eq ?_)
  rw [Finset.sum_add_distrib, Finset.sum_product, Finset.sum_product]
  have d : ∀ i ∈ J, (∑ j ∈ J, if i = j then ε ^ 2 else 0) = ε ^ 2 := fun i hi => by
    rw [Finset.sum_ite_eq, if_pos hi]
  simp only
  rw [Finset.sum_congr rfl d, Finset.sum_const, nsmul_eq_mul, sq (∑ j ∈ J, β j), Finset.sum_mul_sum]

theorem stateMean_div (F : Gen → ℚ) (c : ℚ) : stateMean (fun s => F s / c) = stateMean F / c := by
  unfold stateMean
  rw [← Finset.sum_div, div_right_comm]

/-- Values of symbols that are less than 623 apart, of which some, `C`, have a mean error that is not small. -/
theorem average_error_except {sample : Word → Nat} (hs : Fair sample) (k w : Nat) {J C : Finset Nat}
    (hJ : ∀ j ∈ J, w ≤ j ∧ j < w + 623) (hne : J.Nonempty) (hC : C ⊆ J) {y : Nat → Nat → ℚ} {a : Nat → ℚ} {β ε : ℚ}
    (h0 : 0 ≤ β) (hβ : ∀ j ∈ J, j ∉ C → |Row.mean (y j) - a j| ≤ β) (hε : ∀ j ∈ J, ∀ m, m < 2 ^ 31 → |y j m - a j| ≤ ε) :
    stateMean (fun s => ((∑ j ∈ J, (y j (sample (output s (k + j))) - a j)) / J.card) ^ 2) ≤
      (β + C.card / J.card * ε) ^ 2 + ε ^ 2 / J.card := by
  have hc : (0 : ℚ) < J.card := by exact_mod_cast hne.card_pos
  have hε0 : 0 ≤ ε := by
    obtain ⟨j, hj⟩ := hne
    exact le_trans (abs_nonneg _) (hε j hj 0 (by norm_num))
  have key := square_sum hs k w hJ (z := fun j m => y j m - a j) (β := fun j => β + if j ∈ C then ε else 0) (fun j hj => by
    by_cases h : j ∈ C
    · rw [if_pos h]
      have h1 : Row.mean (fun m => y j m - a j) ≤ ε := mean_le fun m hm => (abs_le.1 (hε j hj m hm)).2
      have h2 : Row.mean (fun m => -(y j m - a j)) ≤ ε := mean_le fun m hm => by linarith [(abs_le.1 (hε j hj m hm)).1]
      have h3 : Row.mean (fun m => -(y j m - a j)) = -Row.mean (fun m => y j m - a j) := by
        unfold Row.mean
        rw [Finset.sum_neg_distrib, neg_div]
      rw [h3] at h2
      rw [abs_le]
      constructor <;> linarith
    · rw [if_neg h, mean_sub]
      linarith [hβ j hj h]) hε
  rw [Finset.sum_add_distrib, Finset.sum_const, nsmul_eq_mul, Finset.sum_ite_mem, Finset.inter_eq_right.2 hC, Finset.sum_const,
    nsmul_eq_mul] at key
  simp only [div_pow]
  rw [stateMean_div, div_le_iff₀ (by positivity)]
  refine le_trans key (le_of_eq ?_)
  field_simp

/-- **C144** Values of symbols that are less than 623 apart, each with an error of at most `ε` and a mean error of at most `β`:
the mean square error of their average is at most `β²` and `ε²` divided by their number. -/
theorem average_error {sample : Word → Nat} (hs : Fair sample) (k w : Nat) {J : Finset Nat} (hJ : ∀ j ∈ J, w ≤ j ∧ j < w + 623)
    (hne : J.Nonempty) {y : Nat → Nat → ℚ} {a : Nat → ℚ} {β ε : ℚ} (hβ : ∀ j ∈ J, |Row.mean (y j) - a j| ≤ β)
    (hε : ∀ j ∈ J, ∀ m, m < 2 ^ 31 → |y j m - a j| ≤ ε) :
    stateMean (fun s => ((∑ j ∈ J, (y j (sample (output s (k + j))) - a j)) / J.card) ^ 2) ≤ β ^ 2 + ε ^ 2 / J.card := by
  have hc : (0 : ℚ) < J.card := by exact_mod_cast hne.card_pos
  have key := square_sum hs k w hJ (z := fun j m => y j m - a j) (β := fun _ => β)
    (fun j hj => by rw [mean_sub]; exact hβ j hj) hε
  rw [Finset.sum_const, nsmul_eq_mul] at key
  simp only [div_pow]
  rw [stateMean_div, div_le_iff₀ (by positivity)]
  refine le_trans key (le_of_eq ?_)
  field_simp

end Dysco.Twister

namespace Dysco.Layout
open BytePacker TimeBlock Stochastic Twister

variable {nR nPol nCh nAnt bits : Nat} {A : Nat → Nat × Nat} {D : Nat → Nat → Cx} {data : Block Cx}

/-- One part of one sample: the mean error and the largest error. -/
theorem row_errors (sq : Fl → Fl) {lib : Prepare.Lib} {dn : Tools.Distribution} (hco : End.Concrete lib dn bits)
    {fl : Nat} {e0 d0 : Nat → Fl} {e : Encoder} (he : Prepare.encoder lib fl dn bits e0 d0 = some e) (hb : Supported bits)
    (h : Holds nR (nPol * nCh) A D data) (hF : ∀ r i, r < nR → i < nPol * nCh → FloatVis (D r i)) (fuel : Nat)
    {packed : Mem 8} {unpacked out : Buf Nat} (hp : packed.len = blockSize nR (symbolCount nR nPol nCh) bits)
    (hu : unpacked.len = symbolCount nR nPol nCh) (ho : out.len = symbolCount nR nPol nCh)
    (dflt : DataRow Cx) (rows : Block Cx) {r i : Nat} (hr : r < nR) (hi : i < nPol * nCh)
    {M m a : ℚ} (hM : IsMax (nPol * nCh) (D r) M) (hM2 : M ≤ 2 ^ (127 : ℤ)) (hc : Counted (D r i) m)
    (hin : (-1 + End.ratio dn ((2 ^ bits - 1 : Nat) : ℚ) + 1 / 10000000) * M < a)
    {part : Cx → Fl} {j : Nat} (hpart : part = Cx.re ∧ j = (r * (nPol * nCh) + i) * 2 ∨
      part = Cx.im ∧ j = (r * (nPol * nCh) + i) * 2 + 1) (ha : part (D r i) = .fin a) :
    ∃ y, ReadBack sq e nR nPol nCh nAnt bits fuel A data packed unpacked out dflt rows j r i part y ∧
      |Row.mean y - a| ≤ (End.ratio dn ((2 ^ bits - 1 : Nat) : ℚ) + 1) * M / 2 ^ 22 + (M + 7 / 2) * 2 ^ (-149 : ℤ) ∧
      ∀ m, m < 2 ^ 31 → |y m - a| ≤ M * (End.ratio dn ((2 ^ bits - 1 : Nat) : ℚ) + 2 ^ (-22 : ℤ)) +
        (2 * M + 5 / 2 + 1) * 2 ^ (-149 : ℤ) := by
  have h16 : bits ≤ 16 := by
    rcases hb with h | h | h | h | h | h | h | h <;> omega
  obtain ⟨g1, g2⟩ := prepared_row_mean (nAnt := nAnt) sq hco he hb h hF fuel hp hu ho dflt rows hr hi hM hM2 hc hin
  obtain ⟨y, y1, y2⟩ : ∃ y, ReadBack sq e nR nPol nCh nAnt bits fuel A data packed unpacked out dflt rows j r i part y ∧
      |Row.mean y - a| ≤ (End.ratio dn ((2 ^ bits - 1 : Nat) : ℚ) + 1) * M / 2 ^ 22 + (M + 7 / 2) * 2 ^ (-149 : ℤ) := by
    rcases hpart with ⟨rfl, rfl⟩ | ⟨rfl, rfl⟩
    · exact g1 ha
    · exact g2 ha
  refine ⟨y, y1, y2, fun m' hm' => ?_⟩
  obtain ⟨d, x, w1, w2, w3⟩ := y1 (fun _ => m') hm'
  obtain ⟨e', b, l, L, δ, t1, t2, t3, t4, t5⟩ := End.concrete_table hco h16 fl e0 d0
  obtain rfl : e' = e := Option.some.inj (t1.symm.trans he)
  have hT := t2.table
  have hn2 := hT.levels.two
  have hM0 := hM.1
  refine le_trans ?_ (End.row_bound hM0 t3 (by linarith) t5)
  have hδ0 : 0 ≤ δ := by
    have h1 := t2.gap 0 (by omega)
    have h2 := StrictlyAscending.asc hT.levels.asc 0 1 (by omega) (by omega)
    linarith
  have hA := dither_accurate hT Fl.r32 δ hδ0 t2.sym t2.gap
  have hmM := hM.2.1 i m hi hc
  have hL2 : L < 2 ^ (128 : ℤ) := lt_of_le_of_lt hT.le fltMax_lt
  obtain ⟨hMr, -⟩ := Row.max_float hM (fun i hi => hF r i hr hi)
  have hML : M / L ≤ 2 ^ (127 : ℤ) := le_trans (div_le_self hM0 t4) hM2
  obtain ⟨d', x', s, b1, b2, b3, b4, b5, b6⟩ := row_block (nAnt := nAnt) sq hT hb t2.count (by omega) h (fun _ => m') fuel hp hu ho
    dflt rows
  obtain rfl : d = d' := Res.ok.inj (w1.symm.trans b1)
  obtain rfl : x = x' := Res.ok.inj (w2.symm.trans b2)
  have hlt := flat_lt hr hi
  have hsc : (r * (nPol * nCh) + i) * 2 + 1 < symbolCount nR nPol nCh := by
    rw [symbolCount_eq]
    omega
  have v1 := b5 r i hr hi
  rw [b6 r i hr hi, b4 r hr, maxFold_eq hM] at w3
  rw [maxFold_eq hM] at v1
  rcases hpart with ⟨rfl, rfl⟩ | ⟨rfl, rfl⟩
  · have v := v1.1
    rw [show (D r i).re = .fin a from ha] at v
    obtain ⟨z, z1, z2, -⟩ := Row.component_float hT.pos t2.float hL2 (hF r i hr hi a (Or.inl ha)).1
      (le_trans (hc.re_le ha) hmM) hMr hM2 hML hA (Row.level_le hT t2.low) v (hT.decode_some (by rw [t2.count]; exact (b3 _ (by omega)).1))
    obtain rfl : z = y m' := Fl.fin.inj (z1.symm.trans w3)
    exact z2
  · have v := v1.2
    rw [show (D r i).im = .fin a from ha] at v
    obtain ⟨z, z1, z2, -⟩ := Row.component_float hT.pos t2.float hL2 (hF r i hr hi a (Or.inr ha)).1
      (le_trans (hc.im_le ha) hmM) hMr hM2 hML hA (Row.level_le hT t2.low) v (hT.decode_some (by rw [t2.count]; exact (b3 _ (by omega)).1))
    obtain rfl : z = y m' := Fl.fin.inj (z1.symm.trans w3)
    exact z2

/-- **C144** A block is written with row normalisation by a thread that made `k` dither values before, and read back. The average
of the errors of some parts of samples whose symbols are less than 623 apart, over all states of the generator: its mean square
is at most the square of the bound of C140 and the square of the error of one value, about a step, divided by their number. -/
theorem row_average (sq : Fl → Fl) {lib : Prepare.Lib} {dn : Tools.Distribution} (hco : End.Concrete lib dn bits)
    {fl : Nat} {e0 d0 : Nat → Fl} {e : Encoder} (he : Prepare.encoder lib fl dn bits e0 d0 = some e) (hb : Supported bits)
    (h : Holds nR (nPol * nCh) A D data) (hF : ∀ r i, r < nR → i < nPol * nCh → FloatVis (D r i)) (fuel : Nat)
    {packed : Mem 8} {unpacked out : Buf Nat} (hp : packed.len = blockSize nR (symbolCount nR nPol nCh) bits)
    (hu : unpacked.len = symbolCount nR nPol nCh) (ho : out.len = symbolCount nR nPol nCh)
    (dflt : DataRow Cx) (rows : Block Cx) {J : Finset Nat} {w : Nat} (hJ : ∀ j ∈ J, w ≤ j ∧ j < w + 623) (hne : J.Nonempty)
    {r i : Nat → Nat} {part : Nat → Cx → Fl} (hr : ∀ j ∈ J, r j < nR) (hi : ∀ j ∈ J, i j < nPol * nCh)
    (hpart : ∀ j ∈ J, part j = Cx.re ∧ j = (r j * (nPol * nCh) + i j) * 2 ∨
      part j = Cx.im ∧ j = (r j * (nPol * nCh) + i j) * 2 + 1)
    {M : ℚ} {Mx m a : Nat → ℚ} (hM : ∀ j ∈ J, IsMax (nPol * nCh) (D (r j)) (Mx j)) (hMx : ∀ j ∈ J, Mx j ≤ M)
    (hM2 : M ≤ 2 ^ (127 : ℤ)) (hc : ∀ j ∈ J, Counted (D (r j) (i j)) (m j))
    (hin : ∀ j ∈ J, (-1 + End.ratio dn ((2 ^ bits - 1 : Nat) : ℚ) + 1 / 10000000) * Mx j < a j)
    (ha : ∀ j ∈ J, part j (D (r j) (i j)) = .fin (a j)) {sample : Word → Nat} (hs : Fair sample) (k : Nat) :
    ∃ Y : Nat → Gen → ℚ, (∀ s, ∃ d x,
      writeBlock (encData .row sq e nPol nCh nAnt (fun n => sample (output s (k + n))) fuel data) bits nR
        (symbolCount nR nPol nCh) packed unpacked = .ok d ∧
      readBlock (decData .row e nPol nCh nAnt A) bits nR (symbolCount nR nPol nCh) nR dflt d out rows = .ok x ∧
      ∀ j ∈ J, part j ((x.get (r j)).vis.get (i j)) = .fin (Y j s)) ∧
      stateMean (fun s => ((∑ j ∈ J, (Y j s - a j)) / J.card) ^ 2) ≤
        ((End.ratio dn ((2 ^ bits - 1 : Nat) : ℚ) + 1) * M / 2 ^ 22 + (M + 7 / 2) * 2 ^ (-149 : ℤ)) ^ 2 +
        (M * (End.ratio dn ((2 ^ bits - 1 : Nat) : ℚ) + 2 ^ (-22 : ℤ)) + (2 * M + 5 / 2 + 1) * 2 ^ (-149 : ℤ)) ^ 2 / J.card := by
  have key : ∀ j, ∃ y, j ∈ J →
      ReadBack sq e nR nPol nCh nAnt bits fuel A data packed unpacked out dflt rows j (r j) (i j) (part j) y ∧
      |Row.mean y - a j| ≤ (End.ratio dn ((2 ^ bits - 1 : Nat) : ℚ) + 1) * M / 2 ^ 22 + (M + 7 / 2) * 2 ^ (-149 : ℤ) ∧
      ∀ m, m < 2 ^ 31 → |y m - a j| ≤ M * (End.ratio dn ((2 ^ bits - 1 : Nat) : ℚ) + 2 ^ (-22 : ℤ)) +
        (2 * M + 5 / 2 + 1) * 2 ^ (-149 : ℤ) := by
    intro j
    by_cases hj : j ∈ J
    · obtain ⟨y, y1, y2, y3⟩ := row_errors (nAnt := nAnt) sq hco he hb h hF fuel hp hu ho dflt rows (hr j hj) (hi j hj) (hM j hj)
        (le_trans (hMx j hj) hM2) (hc j hj) (hin j hj) (hpart j hj) (ha j hj)
      have hρ := End.ratio_nonneg dn ((2 ^ bits - 1 : Nat) : ℚ) (Nat.cast_nonneg _)
      have hle := hMx j hj
      have z := Fl.zp_pos (-149)
      refine ⟨y, fun _ => ⟨y1, le_trans y2 ?_, fun m hm => le_trans (y3 m hm) ?_⟩⟩
      · exact add_le_add (div_le_div_of_nonneg_right (mul_le_mul_of_nonneg_left hle (by linarith)) (by norm_num))
          (mul_le_mul_of_nonneg_right (by linarith) z.le)
      · exact add_le_add (mul_le_mul_of_nonneg_right hle (add_nonneg hρ (Fl.zp_pos _).le))
          (mul_le_mul_of_nonneg_right (by linarith) z.le)
    · exact ⟨fun _ => 0, fun h => absurd h hj⟩
  choose y hy using key
  refine ⟨fun j s => y j (sample (output s (k + j))), fun s => ?_,
    average_error hs k w hJ hne (fun j hj => (hy j hj).2.1) (fun j hj => (hy j hj).2.2)⟩
  obtain ⟨j0, hj0⟩ := hne
  obtain ⟨d, x, w1, w2, -⟩ := (hy j0 hj0).1 (fun n => sample (output s (k + n))) (hs.1 _)
  refine ⟨d, x, w1, w2, fun j hj => ?_⟩
  obtain ⟨d', x', w1', w2', w3'⟩ := (hy j hj).1 (fun n => sample (output s (k + n))) (hs.1 _)
  obtain rfl : d = d' := Res.ok.inj (w1.symm.trans w1')
  obtain rfl : x = x' := Res.ok.inj (w2.symm.trans w2')
  exact w3'

/-- A row of 50 visibilities `1 + i/4`, with the uniform quantiser of 8 bits, after 100 other dither values: an imaginary part is
read with an error of up to 1/84, the mean square error of the average of the 50 is below 1/350000, that is, below 1/590 squared. -/
example (lib : Prepare.Lib) (e0 d0 : Nat → Fl) (packed : Mem 8) (hl : packed.len = 104) (dflt : DataRow Cx) (rows : Block Cx) :
    ∃ e, Prepare.encoder lib 5 .uniform 8 e0 d0 = some e ∧ ∃ Y : Nat → Gen → ℚ, (∀ s, ∃ d x,
      writeBlock (encData .row id e 1 50 2 (fun n => ditherHigh (output s (100 + n))) 5
        ⟨1, fun _ => ⟨0, 1, ⟨50, fun _ => ⟨.fin 1, .fin (1 / 4)⟩⟩⟩⟩) 8 1 100 packed ⟨100, fun _ => 0⟩ = .ok d ∧
      readBlock (decData .row e 1 50 2 fun _ => (0, 1)) 8 1 100 1 dflt d ⟨100, fun _ => 0⟩ rows = .ok x ∧
      ∀ i, i < 50 → ((x.get 0).vis.get i).im = .fin (Y i s)) ∧
      stateMean (fun s => ((∑ i ∈ Finset.range 50, (Y i s - 1 / 4)) / 50) ^ 2) ≤ 1 / 350000 := by
  have hc : Counted (⟨.fin 1, .fin (1 / 4)⟩ : Cx) 1 := ⟨1, rfl, Or.inl ⟨1 / 4, rfl, by norm_num⟩⟩
  have hM : IsMax (1 * 50) (fun _ => (⟨.fin 1, .fin (1 / 4)⟩ : Cx)) 1 :=
    ⟨by norm_num, fun i m _ h => (hc.unique h).ge, Or.inr ⟨0, by decide, hc⟩⟩
  have hco : End.Concrete lib .uniform 8 := Or.inl ⟨rfl, by decide⟩
  obtain ⟨e, -, -, -, -, he, -⟩ := End.concrete_table hco (by decide) 5 e0 d0
  refine ⟨e, he, ?_⟩
  have hinj : Function.Injective fun i : Nat => 2 * i + 1 := fun a b h => by
    simp only at h
    omega
  have hmem : ∀ j, j ∈ (Finset.range 50).image (fun i => 2 * i + 1) → ∃ i, i < 50 ∧ j = 2 * i + 1 := fun j hj => by
    obtain ⟨i, h1, h2⟩ := Finset.mem_image.1 hj
    exact ⟨i, Finset.mem_range.1 h1, h2.symm⟩
  obtain ⟨Y, y1, y2⟩ := row_average (nAnt := 2) (nR := 1) (nPol := 1) (nCh := 50) (A := fun _ => (0, 1))
    (D := fun _ _ => ⟨.fin 1, .fin (1 / 4)⟩) (data := ⟨1, fun _ => ⟨0, 1, ⟨50, fun _ => ⟨.fin 1, .fin (1 / 4)⟩⟩⟩⟩) id hco he
    (by unfold Supported; decide) ⟨rfl, fun _ _ => rfl, fun _ _ => rfl, fun _ _ _ _ => rfl⟩
    (fun r i _ _ a ha => by
      rcases ha with ha | ha
      · obtain rfl := Fl.fin.inj ha
        exact ⟨⟨1, 0, by decide, by norm_num [Fl.binary32], by norm_num⟩, by norm_num⟩
      · obtain rfl := Fl.fin.inj ha
        exact ⟨⟨1, -2, by decide, by norm_num [Fl.binary32], by norm_num⟩, by norm_num⟩)
    5 hl (unpacked := ⟨100, fun _ => 0⟩) (out := ⟨100, fun _ => 0⟩) rfl rfl dflt rows
    (J := (Finset.range 50).image fun i => 2 * i + 1) (w := 0) (r := fun _ => 0) (i := fun j => j / 2) (part := fun _ => Cx.im)
    (M := 1) (Mx := fun _ => 1) (m := fun _ => 1) (a := fun _ => 1 / 4)
    (fun j hj => by obtain ⟨i, h1, rfl⟩ := hmem j hj; omega) ⟨1, Finset.mem_image.2 ⟨0, by decide, rfl⟩⟩
    (fun _ _ => by decide) (fun j hj => by obtain ⟨i, h1, rfl⟩ := hmem j hj; omega)
    (fun j hj => by obtain ⟨i, h1, rfl⟩ := hmem j hj; exact Or.inr ⟨rfl, by omega⟩)
    (fun _ _ => hM) (fun _ _ => le_rfl) (by norm_num) (fun _ _ => hc) (fun _ _ => by norm_num [End.ratio]) (fun _ _ => rfl)
    fair_high 100
  refine ⟨fun i => Y (2 * i + 1), fun s => ?_, ?_⟩
  · obtain ⟨d, x, w1, w2, w3⟩ := y1 s
    refine ⟨d, x, w1, w2, fun i hi => ?_⟩
    have := w3 (2 * i + 1) (Finset.mem_image.2 ⟨i, Finset.mem_range.2 hi, rfl⟩)
    rwa [show (2 * i + 1) / 2 = i by omega] at this
  · rw [Finset.card_image_of_injective _ hinj, Finset.card_range] at y2
    have e : ∀ s, ∑ j ∈ (Finset.range 50).image (fun i => 2 * i + 1), (Y j s - 1 / 4) =
        ∑ i ∈ Finset.range 50, (Y (2 * i + 1) s - 1 / 4) := fun s => Finset.sum_image fun _ _ _ _ h => hinj h
    simp only [e] at y2
    refine le_trans y2 ?_
    norm_num [End.ratio]

end Dysco.Layout
