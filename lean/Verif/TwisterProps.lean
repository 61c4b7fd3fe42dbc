import Verif.Twister
import Verif.MeanRow

/-!
# C141: the dither values of the generator are unbiased

Over all states of the generator every dither value that a thread draws, at whatever position of its sequence, takes each number
below `2^31` equally often.
-/

namespace Dysco.Twister

/-! ## Bits -/

/-- A word is determined by itself exclusive or its upper bits shifted down. -/
theorem xor_shr_inj {k : Nat} (hk : 0 < k) (m : Word) : Function.Injective fun x : Word => x ^^^ ((x >>> k) &&& m) := by
  intro x y h
  have hb : ∀ i, (x.getLsbD i ^^ (x.getLsbD (k + i) && m.getLsbD i)) = (y.getLsbD i ^^ (y.getLsbD (k + i) && m.getLsbD i)) := by
    intro i
    have := congrArg (fun v : Word => v.getLsbD i) h
    simpa using this
  have key : ∀ d i, 32 ≤ i + d → x.getLsbD i = y.getLsbD i := by
    intro d
    induction d using Nat.strong_induction_on with
    | _ d ih =>
      intro i hi
      by_cases h32 : 32 ≤ i
      · rw [BitVec.getLsbD_of_ge _ _ h32, BitVec.getLsbD_of_ge _ _ h32]
      · have h1 := hb i
        rw [ih (d - 1) (by omega) (k + i) (by omega)] at h1
        exact (Bool.xor_left_inj).mp h1
  exact BitVec.eq_of_getLsbD_eq fun i _ => key 32 i (by omega)

/-- A word is determined by itself exclusive or its lower bits shifted up. -/
theorem xor_shl_inj {k : Nat} (hk : 0 < k) (m : Word) : Function.Injective fun x : Word => x ^^^ ((x <<< k) &&& m) := by
  intro x y h
  have hb : ∀ i, i < 32 → (x.getLsbD i ^^ (!decide (i < k) && x.getLsbD (i - k) && m.getLsbD i)) =
      (y.getLsbD i ^^ (!decide (i < k) && y.getLsbD (i - k) && m.getLsbD i)) := by
    intro i hi
    have := congrArg (fun v : Word => v.getLsbD i) h
    simpa only [BitVec.getLsbD_xor, BitVec.getLsbD_and, BitVec.getLsbD_shiftLeft, hi, decide_true, Bool.true_and] using this
  have key : ∀ i, i < 32 → x.getLsbD i = y.getLsbD i := by
    intro i
    induction i using Nat.strong_induction_on with
    | _ i ih =>
      intro hi
      have h1 := hb i hi
      by_cases hik : i < k
      · simpa [hik] using h1
      · rw [ih (i - k) (by omega) (by omega)] at h1
        exact (Bool.xor_left_inj).mp h1
  exact BitVec.eq_of_getLsbD_eq fun i hi => key i hi

/-- Different words give different outputs. -/
theorem temper_injective : Function.Injective temper := by
  have h1 := xor_shr_inj (k := 11) (by decide) 0xffffffff#32
  have h2 := xor_shl_inj (k := 7) (by decide) 0x9d2c5680#32
  have h3 := xor_shl_inj (k := 15) (by decide) 0xefc60000#32
  have h4 := xor_shr_inj (k := 18) (by decide) 0xffffffff#32
  exact ((h4.comp h3).comp h2).comp h1

theorem upper_bit : ∀ i, i < 32 → (0x80000000#32).getLsbD i = decide (i = 31) := by decide

theorem lower_bits : ∀ i, i < 32 → (0x7fffffff#32).getLsbD i = decide (i < 31) := by decide

/-- The word that is multiplied: bit 31 of one word and the others of the next. -/
theorem mixed_bit (u l : Word) (i : Nat) (hi : i < 32) :
    ((u &&& 0x80000000#32) ||| (l &&& 0x7fffffff#32)).getLsbD i = if i = 31 then u.getLsbD 31 else l.getLsbD i := by
  simp only [BitVec.getLsbD_or, BitVec.getLsbD_and, upper_bit i hi, lower_bits i hi]
  by_cases h : i = 31
  · subst h
    simp
  · simp [h, show i < 31 by omega]

/-- The matrix is invertible. -/
theorem matrix_inj {y z : Word} (h : (y >>> 1) ^^^ (if y.getLsbD 0 then 0x9908b0df#32 else 0#32) =
    (z >>> 1) ^^^ (if z.getLsbD 0 then 0x9908b0df#32 else 0#32)) : y = z := by
  have h0 : y.getLsbD 0 = z.getLsbD 0 := by
    have h' := h
    generalize y.getLsbD 0 = p at h' ⊢
    generalize z.getLsbD 0 = q at h' ⊢
    have h31 := congrArg (fun v : Word => v.getLsbD 31) h'
    cases p <;> cases q <;> simp at h31 ⊢
  rw [h0] at h
  have h1 : y >>> 1 = z >>> 1 := by
    have := congrArg (fun v : Word => v ^^^ (if z.getLsbD 0 then 0x9908b0df#32 else 0#32)) h
    simpa [BitVec.xor_assoc] using this
  refine BitVec.eq_of_getLsbD_eq fun i hi => ?_
  rcases Nat.eq_zero_or_pos i with rfl | hp
  · exact h0
  · have := congrArg (fun v : Word => v.getLsbD (i - 1)) h1
    simpa [show 1 + (i - 1) = i by omega] using this

/-- The result of `twist` determines the bits that are used. -/
theorem twist_inj {u l u' l' : Word} (h : twist u l = twist u' l') :
    u.getLsbD 31 = u'.getLsbD 31 ∧ ∀ i, i < 31 → l.getLsbD i = l'.getLsbD i := by
  have e := matrix_inj h
  constructor
  · have := congrArg (fun v : Word => v.getLsbD 31) e
    simpa [mixed_bit] using this
  · intro i hi
    have := congrArg (fun v : Word => v.getLsbD i) e
    simp only [mixed_bit _ _ i (by omega), show i ≠ 31 by omega, if_false] at this
    exact this

/-! ## The bits of the state that matter -/

/-- All but the lower 31 bits of the oldest word: the 19937 bits that the outputs depend on. Not in the code. -/
abbrev Core := Bool × (Fin 623 → Word)

/-- The bits of a state. Not in the code. -/
def core (s : Gen) : Core := ((s 0).getLsbD 31, fun i => s i.succ)

/-- A state with these bits. Not in the code. -/
def ofCore (r : Core) : Gen := Fin.cons (if r.1 then 0x80000000#32 else 0#32) r.2

theorem core_ofCore (r : Core) : core (ofCore r) = r := by
  obtain ⟨b, w⟩ := r
  cases b <;> simp [core, ofCore]

theorem twist_core {u u' : Word} (l : Word) (h : u.getLsbD 31 = u'.getLsbD 31) : twist u l = twist u' l := by
  have : (u &&& 0x80000000#32) ||| (l &&& 0x7fffffff#32) = (u' &&& 0x80000000#32) ||| (l &&& 0x7fffffff#32) := by
    refine BitVec.eq_of_getLsbD_eq fun i hi => ?_
    rw [mixed_bit _ _ i hi, mixed_bit _ _ i hi, h]
  unfold twist
  rw [this]

theorem next_core {s t : Gen} (h : core s = core t) : next s = next t := by
  have h1 := congrArg Prod.fst h
  have h2 := congrArg Prod.snd h
  have e : ∀ i : Fin 623, s i.succ = t i.succ := fun i => congrFun h2 i
  unfold next
  have e1 := e 396
  have e2 := e 0
  rw [show (397 : Fin 624) = Fin.succ 396 from rfl, show (1 : Fin 624) = Fin.succ 0 from rfl, e1, e2, twist_core _ h1]

theorem core_step {s t : Gen} (h : core s = core t) : core (step s) = core (step t) := by
  have h2 := congrArg Prod.snd h
  have e : ∀ i : Fin 623, s i.succ = t i.succ := fun i => congrFun h2 i
  have g : ∀ i, step s i = step t i := by
    intro i
    unfold step
    split
    · exact e ⟨i.val, by omega⟩
    · exact next_core h
  unfold core
  simp only [g]

/-- The step on these bits. Not in the code. -/
def coreStep (r : Core) : Core := core (step (ofCore r))

theorem core_iterate (s : Gen) (k : Nat) : core (step^[k] s) = coreStep^[k] (core s) := by
  induction k with
  | zero => rfl
  | succ k ih =>
    rw [Function.iterate_succ_apply', Function.iterate_succ_apply', ← ih]
    exact core_step (core_ofCore _).symm

/-- The step can be undone. -/
theorem coreStep_injective : Function.Injective coreStep := by
  intro r t h
  have h1 := congrArg Prod.fst h
  have h2 := fun i => congrFun (congrArg Prod.snd h) i
  have hw : ∀ i : Fin 622, r.2 i.succ = t.2 i.succ := by
    intro i
    have := h2 ⟨i.val, by omega⟩
    simp only [coreStep, core, step, Fin.val_succ, show i.val + 1 + 1 < 624 by omega, dif_pos, ofCore] at this
    exact this
  have hn : next (ofCore r) = next (ofCore t) := by
    have := h2 622
    simpa [coreStep, core, step] using this
  have h396 : ofCore r 397 = ofCore t 397 := hw 395
  unfold next at hn
  rw [h396] at hn
  have ht : twist (ofCore r 0) (ofCore r 1) = twist (ofCore t 0) (ofCore t 1) := by
    have := congrArg (fun v : Word => ofCore t 397 ^^^ v) hn
    simpa [← BitVec.xor_assoc] using this
  obtain ⟨t1, t2⟩ := twist_inj ht
  have hb : r.1 = t.1 := by
    have a := congrArg Prod.fst (core_ofCore r)
    have b := congrArg Prod.fst (core_ofCore t)
    rw [← a, ← b]
    exact t1
  have h0 : r.2 0 = t.2 0 := by
    refine BitVec.eq_of_getLsbD_eq fun i hi => ?_
    by_cases h31 : i = 31
    · subst h31
      exact h1
    · exact t2 i (by omega)
  refine Prod.ext hb (funext fun i => ?_)
  induction i using Fin.cases with
  | zero => exact h0
  | succ i => exact hw i

/-! ## Sums over all words and all states -/

instance : Fintype Word := Fintype.ofEquiv (Fin (2 ^ 32)) ⟨BitVec.ofFin, BitVec.toFin, fun _ => rfl, fun _ => rfl⟩

theorem card_word : Fintype.card Word = 2 ^ 32 := by
  rw [Fintype.card_congr (α := Word) (β := Fin (2 ^ 32)) ⟨BitVec.toFin, BitVec.ofFin, fun _ => rfl, fun _ => rfl⟩]
  exact Fintype.card_fin _

theorem sum_word (f : Nat → ℚ) : ∑ v : Word, f v.toNat = ∑ m ∈ Finset.range (2 ^ 32), f m := by
  rw [← Fin.sum_univ_eq_sum_range]
  exact Fintype.sum_equiv ⟨BitVec.toFin, BitVec.ofFin, fun _ => rfl, fun _ => rfl⟩ _ _ fun _ => rfl

theorem sum_half (f : Nat → ℚ) (n : Nat) : ∑ m ∈ Finset.range (n * 2), f (m / 2) = 2 * ∑ m ∈ Finset.range n, f m := by
  induction n with
  | zero => simp
  | succ n ih =>
    rw [show (n + 1) * 2 = n * 2 + 1 + 1 by ring, Finset.sum_range_succ, Finset.sum_range_succ, ih, Finset.sum_range_succ,
      show (n * 2) / 2 = n by omega, show (n * 2 + 1) / 2 = n by omega]
    ring

theorem sum_mod (f : Nat → ℚ) (n : Nat) : ∑ m ∈ Finset.range (n + n), f (m % n) = 2 * ∑ m ∈ Finset.range n, f m := by
  rw [Finset.sum_range_add]
  have h1 : ∑ m ∈ Finset.range n, f (m % n) = ∑ m ∈ Finset.range n, f m :=
    Finset.sum_congr rfl fun m hm => by rw [Nat.mod_eq_of_lt (Finset.mem_range.1 hm)]
  have h2 : ∑ m ∈ Finset.range n, f ((n + m) % n) = ∑ m ∈ Finset.range n, f m :=
    Finset.sum_congr rfl fun m hm => by rw [Nat.add_mod_left, Nat.mod_eq_of_lt (Finset.mem_range.1 hm)]
  rw [h1, h2]
  ring

/-- Every number below `2^31` comes from two words. Not in the code. -/
def Fair (sample : Word → Nat) : Prop :=
  (∀ v, sample v < 2 ^ 31) ∧ ∀ f : Nat → ℚ, ∑ v, f (sample v) = 2 * ∑ m ∈ Finset.range (2 ^ 31), f m

/-- **C141** The dither values of libstdc++ are fair: each of the `2^31` comes from two words. -/
theorem fair_high : Fair ditherHigh := by
  have e : ∀ v, ditherHigh v = v.toNat / 2 := fun v => by
    unfold ditherHigh
    omega
  refine ⟨fun v => ?_, fun f => ?_⟩
  · rw [e]
    have := v.isLt
    omega
  · simp only [e]
    rw [sum_word (fun m => f (m / 2)), ← sum_half, show 2 ^ 32 = 2 ^ 31 * 2 by norm_num]

/-- **C141** The dither values of libc++ are fair: each of the `2^31` comes from two words. -/
theorem fair_low : Fair ditherLow := by
  refine ⟨fun v => Nat.mod_lt _ (by norm_num), fun f => ?_⟩
  unfold ditherLow
  rw [sum_word (fun m => f (m % 2 ^ 31)), ← sum_mod, show 2 ^ 32 = 2 ^ 31 + 2 ^ 31 by norm_num]

/-- Half of the words have the upper bit. -/
theorem sum_upper (f : Bool → ℚ) : ∑ v : Word, f (v.getLsbD 31) = 2 ^ 31 * ∑ b, f b := by
  have e : ∀ v : Word, f (v.getLsbD 31) = f (v.toNat.testBit 31) := fun v => rfl
  simp only [e]
  rw [sum_word (fun m => f (m.testBit 31)), show 2 ^ 32 = 2 ^ 31 + 2 ^ 31 by norm_num, Finset.sum_range_add]
  have h1 : ∑ m ∈ Finset.range (2 ^ 31), f (m.testBit 31) = ∑ m ∈ Finset.range (2 ^ 31), f false :=
    Finset.sum_congr rfl fun m hm => by rw [Nat.testBit_lt_two_pow (Finset.mem_range.1 hm)]
  have h2 : ∑ m ∈ Finset.range (2 ^ 31), f ((2 ^ 31 + m).testBit 31) = ∑ m ∈ Finset.range (2 ^ 31), f true :=
    Finset.sum_congr rfl fun m hm => by
      rw [Nat.testBit_two_pow_add_eq, Nat.testBit_lt_two_pow (Finset.mem_range.1 hm)]
      rfl
  rw [h1, h2, Finset.sum_const, Finset.sum_const, Finset.card_range, Fintype.sum_bool]
  simp only [nsmul_eq_mul]
  push_cast
  ring

/-- A function of the bits that matter, summed over all states. -/
theorem sum_core (F : Core → ℚ) : ∑ s : Gen, F (core s) = 2 ^ 31 * ∑ r, F r := by
  have e := Fintype.sum_equiv (Fin.consEquiv (fun _ : Fin 624 => Word)) (fun p => F (p.1.getLsbD 31, p.2)) (fun s => F (core s))
    (fun p => rfl)
  rw [← e, Fintype.sum_prod_type_right, Fintype.sum_prod_type_right, Finset.mul_sum]
  exact Finset.sum_congr rfl fun w _ => sum_upper fun b => F (b, w)

theorem coreStep_bijective : Function.Bijective coreStep := Finite.injective_iff_bijective.1 coreStep_injective

theorem temper_bijective : Function.Bijective temper := Finite.injective_iff_bijective.1 temper_injective

/-- The newest word after a step is the word of the output. -/
theorem coreStep_last (r : Core) : (coreStep r).2 622 = next (ofCore r) := by simp [coreStep, core, step]

/-- A step moves the other words. -/
theorem coreStep_move (r : Core) (i : Nat) (hi : i < 622) : (coreStep r).2 ⟨i, by omega⟩ = r.2 ⟨i + 1, by omega⟩ := by
  simp only [coreStep, core, step, Fin.succ_mk, show i + 1 + 1 < 624 by omega, dif_pos, ofCore]
  rfl

/-- Output `k` is a function of the bits that matter. -/
theorem output_core (s : Gen) (k : Nat) : output s k = temper ((coreStep^[k + 1] (core s)).2 622) := by
  rw [Function.iterate_succ_apply', coreStep_last, ← core_iterate]
  unfold output
  rw [next_core (core_ofCore _).symm]

/-- The sum over all states of a function of one word. -/
theorem sum_last : ∃ C : ℚ, ∀ f : Word → ℚ, ∑ r : Core, f (r.2 622) = C * ∑ v, f v := by
  refine ⟨2 * (Fintype.card ({j : Fin 623 // j ≠ 622} → Word) : ℚ), fun f => ?_⟩
  have e := Fintype.sum_equiv (Equiv.funSplitAt (622 : Fin 623) Word) (fun w => f (w 622)) (fun p => f p.1) (fun w => rfl)
  rw [Fintype.sum_prod_type]
  simp only [e, Fintype.sum_prod_type, Finset.sum_const, Finset.card_univ, Fintype.card_bool, nsmul_eq_mul, Nat.cast_ofNat,
    ← Finset.mul_sum, mul_assoc]

/-- The mean over all states of the generator. Not in the code. -/
def stateMean (F : Gen → ℚ) : ℚ := (∑ s : Gen, F s) / Fintype.card Gen

/-- **C141** Every output is equidistributed over all states of the generator. -/
theorem output_uniform (k : Nat) (f : Word → ℚ) : stateMean (fun s => f (output s k)) = (∑ v, f v) / 2 ^ 32 := by
  obtain ⟨C, hC⟩ := sum_last
  have key : ∀ f : Word → ℚ, ∑ s : Gen, f (output s k) = 2 ^ 31 * (C * ∑ v, f v) := by
    intro f
    simp only [output_core]
    rw [sum_core fun r => f (temper ((coreStep^[k + 1] r).2 622)),
      (coreStep_bijective.iterate (k + 1)).sum_comp fun r => f (temper (r.2 622)), hC fun v => f (temper v),
      temper_bijective.sum_comp f]
  have h1 := key fun _ => 1
  simp only [Finset.sum_const, Finset.card_univ, card_word, nsmul_eq_mul, mul_one] at h1
  have hpos : (0 : ℚ) < Fintype.card Gen := by
    have : 0 < Fintype.card Gen := Fintype.card_pos
    exact_mod_cast this
  unfold stateMean
  rw [key f, div_eq_div_iff hpos.ne' (by norm_num), h1]
  push_cast
  ring

/-- **C141** So is every dither value, and the mean over the states is that over the dither values. -/
theorem dither_uniform {sample : Word → Nat} (h : Fair sample) (k : Nat) (f : Nat → ℚ) :
    stateMean (fun s => f (sample (output s k))) = Row.mean f := by
  rw [output_uniform k fun v => f (sample v), h.2 f]
  unfold Row.mean
  norm_num
  ring

/-- The words after some steps. -/
theorem iterate_word (r : Core) (n : Nat) (i : Nat) (hi : i < n) (hn : n ≤ 623) :
    (coreStep^[n] r).2 ⟨623 - n + i, by omega⟩ = (coreStep^[i + 1] r).2 622 := by
  induction n with
  | zero => omega
  | succ n ih =>
    by_cases h : i = n
    · subst h
      exact congrArg (coreStep^[i + 1] r).2 (Fin.ext (show 623 - (i + 1) + i = 622 by omega))
    · rw [Function.iterate_succ_apply', coreStep_move _ _ (by omega), ← ih (by omega) (by omega)]
      exact congrArg (coreStep^[n] r).2 (Fin.ext (show 623 - (n + 1) + i + 1 = 623 - n + i by omega))

theorem iterate_all (r : Core) (n : Nat) (hn : n = 623) (i : Fin 623) : (coreStep^[n] r).2 i = (coreStep^[i.val + 1] r).2 622 := by
  rw [← iterate_word r n i (by omega) (by omega)]
  exact congrArg (coreStep^[n] r).2 (Fin.ext (show i.val = 623 - n + i.val by omega))

/-- **C141** Any 623 outputs in a row, after any number of others, are independent: every sequence of 623 words comes from two
of the `2^19937` states, which differ in one bit. -/
theorem outputs_bijective (k : Nat) :
    Function.Bijective fun r : Core => ((coreStep^[k + 623] r).1, fun i : Fin 623 => output (ofCore r) (k + i)) := by
  have e : (fun r : Core => ((coreStep^[k + 623] r).1, fun i : Fin 623 => output (ofCore r) (k + i))) =
      (fun r : Core => (r.1, fun i => temper (r.2 i))) ∘ coreStep^[623] ∘ coreStep^[k] := by
    funext r
    refine Prod.ext ?_ (funext fun i => ?_)
    · simp only [Function.comp]
      rw [← Function.iterate_add_apply, Nat.add_comm]
    · simp only [Function.comp]
      rw [output_core, core_ofCore, show k + i.val + 1 = (i.val + 1) + k by omega, Function.iterate_add_apply,
        iterate_all (coreStep^[k] r) 623 rfl i]
  rw [e]
  refine Function.Bijective.comp ?_ ((coreStep_bijective.iterate 623).comp (coreStep_bijective.iterate k))
  refine Finite.injective_iff_bijective.1 fun r t h => ?_
  obtain ⟨h1, h2⟩ := Prod.mk.inj h
  exact Prod.ext h1 (funext fun i => temper_injective (congrFun h2 i))

/-- **C141** Different seeds give different states. With a static seed all threads of all columns start with the same state,
the one with the seed 5489, and do not advance the generator of the column. -/
theorem thread_seed : Function.Injective seeded ∧ (∀ c c', (threadGen false c).1 = (threadGen false c').1) ∧
    (∀ c, threadGen false c = (seeded 5489#32, c)) ∧
    ∀ c c', (threadGen true c).1 = (threadGen true c').1 ↔ output c 0 = output c' 0 := by
  have hi : Function.Injective seeded := fun a b h => congrFun h 0
  exact ⟨hi, fun _ _ => rfl, fun _ => rfl, fun c c' => ⟨fun h => hi h, fun h => congrArg seeded h⟩⟩

example : threadGen true (seeded 7#32) = (seeded 327741615#32, step (seeded 7#32)) := by
  have : output (seeded 7#32) 0 = 327741615#32 := by decide +kernel
  simp [threadGen, this]

/-- The hypothesis on the distribution holds for both libraries, and the state with the default seed is one of the states. -/
example : Fair ditherHigh ∧ Fair ditherLow ∧ ditherHigh (output (seeded 5489#32) 0) = 1749605806 ∧
    ditherLow (output (seeded 5489#32) 0) = 1351727964 :=
  ⟨fair_high, fair_low, by decide +kernel, by decide +kernel⟩

end Dysco.Twister

namespace Dysco.Layout
open BytePacker TimeBlock Stochastic Twister

variable {nR nPol nCh nAnt bits : Nat} {A : Nat → Nat × Nat} {D : Nat → Nat → Cx} {data : Block Cx}

/-- What is read for one symbol, over all states of the generator of the thread, after it made `k` numbers for earlier blocks. -/
theorem readBack_states {sq : Fl → Fl} {e : Encoder} {fuel : Nat} {packed : Mem 8} {unpacked out : Buf Nat} {dflt : DataRow Cx}
    {rows : Block Cx} {j r i : Nat} {part : Cx → Fl} {y : Nat → ℚ}
    (h : ReadBack sq e nR nPol nCh nAnt bits fuel A data packed unpacked out dflt rows j r i part y)
    {sample : Word → Nat} (hs : Fair sample) (k : Nat) :
    ∃ Y : Gen → ℚ, (∀ s, ∃ d x,
      writeBlock (encData .row sq e nPol nCh nAnt (fun n => sample (output s (k + n))) fuel data) bits nR
        (symbolCount nR nPol nCh) packed unpacked = .ok d ∧
      readBlock (decData .row e nPol nCh nAnt A) bits nR (symbolCount nR nPol nCh) nR dflt d out rows = .ok x ∧
      part ((x.get r).vis.get i) = .fin (Y s)) ∧ stateMean Y = Row.mean y :=
  ⟨fun s => y (sample (output s (k + j))), fun s => h (fun n => sample (output s (k + n))) (hs.1 _),
    dither_uniform hs (k + j) y⟩

/-- **C141** A block is written with row normalisation and read back, by a thread that made `k` dither values before. Over all
states of its generator the mean of what is read for one part of one sample is the value that was written, up to the bound of
C140. -/
theorem row_mean_states (sq : Fl → Fl) {lib : Prepare.Lib} {dn : Tools.Distribution} (hco : End.Concrete lib dn bits)
    {fl : Nat} {e0 d0 : Nat → Fl} {e : Encoder} (he : Prepare.encoder lib fl dn bits e0 d0 = some e) (hb : Supported bits)
    (h : Holds nR (nPol * nCh) A D data) (hF : ∀ r i, r < nR → i < nPol * nCh → FloatVis (D r i)) (fuel : Nat)
    {packed : Mem 8} {unpacked out : Buf Nat} (hp : packed.len = blockSize nR (symbolCount nR nPol nCh) bits)
    (hu : unpacked.len = symbolCount nR nPol nCh) (ho : out.len = symbolCount nR nPol nCh)
    (dflt : DataRow Cx) (rows : Block Cx) {r i : Nat} (hr : r < nR) (hi : i < nPol * nCh)
    {M m a : ℚ} (hM : IsMax (nPol * nCh) (D r) M) (hM2 : M ≤ 2 ^ (127 : ℤ)) (hc : Counted (D r i) m)
    (hin : (-1 + End.ratio dn ((2 ^ bits - 1 : Nat) : ℚ) + 1 / 10000000) * M < a)
    {part : Cx → Fl} (hpart : part = Cx.re ∨ part = Cx.im) (ha : part (D r i) = .fin a)
    {sample : Word → Nat} (hs : Fair sample) (k : Nat) :
    ∃ Y : Gen → ℚ, (∀ s, ∃ d x,
      writeBlock (encData .row sq e nPol nCh nAnt (fun n => sample (output s (k + n))) fuel data) bits nR
        (symbolCount nR nPol nCh) packed unpacked = .ok d ∧
      readBlock (decData .row e nPol nCh nAnt A) bits nR (symbolCount nR nPol nCh) nR dflt d out rows = .ok x ∧
      part ((x.get r).vis.get i) = .fin (Y s)) ∧
      |stateMean Y - a| ≤ (End.ratio dn ((2 ^ bits - 1 : Nat) : ℚ) + 1) * M / 2 ^ 22 + (M + 7 / 2) * 2 ^ (-149 : ℤ) := by
  obtain ⟨g1, g2⟩ := prepared_row_mean (nAnt := nAnt) sq hco he hb h hF fuel hp hu ho dflt rows hr hi hM hM2 hc hin
  obtain ⟨j, y, y1, y2⟩ : ∃ j y, ReadBack sq e nR nPol nCh nAnt bits fuel A data packed unpacked out dflt rows j r i part y ∧
      |Row.mean y - a| ≤ (End.ratio dn ((2 ^ bits - 1 : Nat) : ℚ) + 1) * M / 2 ^ 22 + (M + 7 / 2) * 2 ^ (-149 : ℤ) := by
    rcases hpart with rfl | rfl
    · exact ⟨_, g1 ha⟩
    · exact ⟨_, g2 ha⟩
  obtain ⟨Y, h1, h2⟩ := readBack_states y1 hs k
  exact ⟨Y, h1, h2 ▸ y2⟩

/-- The imaginary part of one visibility `1 + i/4`, with the uniform quantiser of 8 bits, after 100 other dither values. -/
example (lib : Prepare.Lib) (e0 d0 : Nat → Fl) (packed : Mem 8) (hl : packed.len = 6) (dflt : DataRow Cx) (rows : Block Cx) :
    ∃ e, Prepare.encoder lib 5 .uniform 8 e0 d0 = some e ∧ ∃ Y : Gen → ℚ, (∀ s, ∃ d x,
      writeBlock (encData .row id e 1 1 2 (fun n => ditherHigh (output s (100 + n))) 5
        ⟨1, fun _ => ⟨0, 1, ⟨1, fun _ => ⟨.fin 1, .fin (1 / 4)⟩⟩⟩⟩) 8 1 2 packed ⟨2, fun _ => 0⟩ = .ok d ∧
      readBlock (decData .row e 1 1 2 fun _ => (0, 1)) 8 1 2 1 dflt d ⟨2, fun _ => 0⟩ rows = .ok x ∧
      ((x.get 0).vis.get 0).im = .fin (Y s)) ∧ |stateMean Y - 1 / 4| ≤ 1 / 4000000 := by
  have hc : Counted (⟨.fin 1, .fin (1 / 4)⟩ : Cx) 1 := ⟨1, rfl, Or.inl ⟨1 / 4, rfl, by norm_num⟩⟩
  have hM : IsMax (1 * 1) (fun _ => (⟨.fin 1, .fin (1 / 4)⟩ : Cx)) 1 :=
    ⟨by norm_num, fun i m _ h => (hc.unique h).ge, Or.inr ⟨0, by decide, hc⟩⟩
  have hco : End.Concrete lib .uniform 8 := Or.inl ⟨rfl, by decide⟩
  obtain ⟨e, -, -, -, -, he, -⟩ := End.concrete_table hco (by decide) 5 e0 d0
  refine ⟨e, he, ?_⟩
  obtain ⟨Y, y1, y2⟩ := row_mean_states (nAnt := 2) (nR := 1) (nPol := 1) (nCh := 1) (A := fun _ => (0, 1))
    (D := fun _ _ => ⟨.fin 1, .fin (1 / 4)⟩) (data := ⟨1, fun _ => ⟨0, 1, ⟨1, fun _ => ⟨.fin 1, .fin (1 / 4)⟩⟩⟩⟩) id hco he
    (by unfold Supported; decide) ⟨rfl, fun _ _ => rfl, fun _ _ => rfl, fun _ _ _ _ => rfl⟩
    (fun r i _ _ a ha => by
      rcases ha with ha | ha
      · obtain rfl := Fl.fin.inj ha
        exact ⟨⟨1, 0, by decide, by norm_num [Fl.binary32], by norm_num⟩, by norm_num⟩
      · obtain rfl := Fl.fin.inj ha
        exact ⟨⟨1, -2, by decide, by norm_num [Fl.binary32], by norm_num⟩, by norm_num⟩)
    5 hl (unpacked := ⟨2, fun _ => 0⟩) (out := ⟨2, fun _ => 0⟩) rfl rfl dflt rows (r := 0) (i := 0) (by decide)
    (by decide) hM (by norm_num) hc (a := 1 / 4) (by norm_num [End.ratio]) (Or.inr rfl) rfl fair_high 100
  refine ⟨Y, y1, le_trans y2 ?_⟩
  norm_num [End.ratio]

end Dysco.Layout
