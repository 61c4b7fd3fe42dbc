import Verif.BytePackerProps

/-!
# C116: packing symbols that are followed by anything

`encodeAndWrite` packs the symbols of a whole block. If the last block of a table has fewer rows than the others, the rest
of the symbol buffer was never assigned in this block: it holds whatever was there (the buffer is a `UVector`, whose
elements are not initialised, threadeddyscocolumn.cc:307). The symbols that were assigned are packed correctly nevertheless.
-/

namespace Dysco.BytePacker

/-- Origins of the bits of the packed bytes when nothing is known about the symbols: the stream bit of a symbol contains that
bit, and apart from it only bits of earlier symbols that are zero in a symbol of `b` bits. -/
def okCells (b nS : Nat) (cells : List Cell) : Bool :=
  (List.range cells.length).all fun c => (List.range 8).all fun t =>
    decide (nS ≤ (c * 8 + t) / b) ||
    (((cells.getD c []).getD t []).contains ((c * 8 + t) / b, (c * 8 + t) % b) &&
      ((cells.getD c []).getD t []).all fun p =>
        p == ((c * 8 + t) / b, (c * 8 + t) % b) || (decide (p.1 < (c * 8 + t) / b) && decide (b ≤ p.2)))

/-- The check for the loop body and all tails. -/
def checkPrefix (p : Prog) (b gd : Nat) : Bool :=
  decide (0 < p.group) && decide (p.group * b = gd * 8) && decide (0 < b) &&
  (match absRun 32 8 p.group gd p.body ⟨0, 0, []⟩ with
    | none => false
    | some a => decide (a.so = p.group) && decide (a.d = gd) && decide (a.cells.length = gd) && okCells b p.group a.cells) &&
  (List.range p.group).all fun r =>
    match absRun 32 8 r (tb b r) (p.tail.take r).flatten ⟨0, 0, []⟩ with
    | none => false
    | some a => decide (a.cells.length = tb b r) && okCells b r a.cells

/-- What is right about a bit: it is that of its symbol if this symbol and all symbols before it have `b` bits. -/
def GoodBit (b n : Nat) (src : Mem 32) (c t : Nat) (bit : Bool) : Prop :=
  (c * 8 + t) / b < n → (∀ k, k ≤ (c * 8 + t) / b → (src.get k).toNat < 2 ^ b) →
    bit = (src.get ((c * 8 + t) / b)).getLsbD ((c * 8 + t) % b)

theorem bitVal_good {b nS : Nat} (hb : 0 < b) {cells : List Cell} (h : okCells b nS cells = true) {src : Mem 32} {sp0 dp0 : Nat}
    (hal : sp0 * b = dp0 * 8) {c t : Nat} (hc : c < cells.length) (ht : t < 8) :
    GoodBit b (sp0 + nS) src (dp0 + c) t (bitVal src sp0 ((cells.getD c []).getD t [])) := by
  intro hn hz
  have e1 : (dp0 + c) * 8 + t = (c * 8 + t) + sp0 * b := by rw [Nat.add_mul, hal]; omega
  rw [e1, Nat.add_mul_div_right _ _ hb] at hn hz
  rw [e1, Nat.add_mul_div_right _ _ hb, Nat.add_mul_mod_self_right]
  simp only [okCells, List.all_eq_true, List.mem_range] at h
  have h := h c hc t ht
  rw [Bool.or_eq_true, decide_eq_true_eq] at h
  rcases h with h | h
  · omega
  simp only [Bool.and_eq_true, List.contains_iff_mem, List.all_eq_true, Bool.or_eq_true, beq_iff_eq, decide_eq_true_eq] at h
  obtain ⟨h1, h2⟩ := h
  unfold bitVal
  rw [Bool.eq_iff_iff, List.any_eq_true]
  constructor
  · rintro ⟨x, hx, hv⟩
    rcases h2 x hx with rfl | ⟨h3, h4⟩
    · rw [Nat.add_comm]; exact hv
    · have := hz (sp0 + x.1) (by omega)
      have hf : (src.get (sp0 + x.1)).getLsbD x.2 = false := by
        rw [BitVec.getLsbD]
        exact Nat.testBit_lt_two_pow (Nat.lt_of_lt_of_le this (Nat.pow_le_pow_right (by decide) h4))
      rw [hf] at hv
      cases hv
  · intro hv
    refine ⟨_, h1, ?_⟩
    rw [Nat.add_comm] at hv
    exact hv

theorem piece_prefix {b nS nD so d : Nat} (hb : 0 < b) (src : Mem 32) (sp0 dp0 : Nat) (hal : sp0 * b = dp0 * 8) (m0 : Mem 8)
    (hS : sp0 + nS ≤ src.len) (hD : dp0 + nD ≤ m0.len) (is : List Instr) {cells : List Cell}
    (h : absRun 32 8 nS nD is ⟨0, 0, []⟩ = some ⟨so, d, cells⟩) (hl : cells.length = nD) (hok : okCells b nS cells = true) :
    ∃ s', runList src is ⟨sp0, dp0, m0⟩ = some s' ∧ s'.sp = sp0 + so ∧ s'.dp = dp0 + d ∧ s'.dst.len = m0.len ∧
      (∀ j, j < nD → ∀ t, t < 8 → GoodBit b (sp0 + nS) src (dp0 + j) t ((s'.dst.get (dp0 + j)).getLsbD t)) ∧
      (∀ i, (i < dp0 ∨ dp0 + nD ≤ i) → s'.dst.get i = m0.get i) := by
  obtain ⟨s', he, hR⟩ := absRun_sound (by omega) src sp0 dp0 m0 hS hD
    (fun i _ j hj => BitVec.getLsbD_of_ge _ _ hj) is ⟨0, 0, []⟩ _ ⟨sp0, dp0, m0⟩ ⟨rfl, rfl, rfl, by simp, by simp⟩ h
  refine ⟨s', he, hR.sp, hR.dp, hR.len, ?_, ?_⟩
  · intro j hj t ht
    have hj' : j < cells.length := by omega
    have e1 : cells[j]? = some (cells.getD j []) := by
      rw [List.getD_eq_getElem?_getD]
      simp [hj']
    obtain ⟨k1, k2⟩ := hR.cell j _ e1
    have e2 : (cells.getD j [])[t]? = some ((cells.getD j []).getD t []) := by
      have : t < (cells.getD j []).length := by rw [k1]; exact ht
      generalize cells.getD j [] = l at this ⊢
      rw [List.getD_eq_getElem?_getD]
      simp [this]
    rw [k2 t _ e2]
    exact bitVal_good hb hok hal hj' ht
  · intro i hi
    apply hR.rest
    rw [hl]
    exact hi

theorem GoodBit.mono {b n n' : Nat} {src : Mem 32} {c t : Nat} {bit : Bool} (h : GoodBit b n src c t bit)
    (hn : (c * 8 + t) / b < n' → (c * 8 + t) / b < n) : GoodBit b n' src c t bit := fun h1 => h (hn h1)

theorem runLoop_snoc {ws wd : Nat} (src : Mem ws) (body : List Instr) (k : Nat) (s : St wd) :
    runLoop src body (k + 1) s = (runLoop src body k s).bind (runList src body) := by
  induction k generalizing s with
  | zero => simp [runLoop]
  | succ k ih =>
    rw [runLoop]
    conv => rhs; rw [runLoop]
    cases runList src body s with
    | none => rfl
    | some s1 => exact ih s1

theorem loop_prefix {b gs gd : Nat} (hb : 0 < b) (hg : gs * b = gd * 8) (body : List Instr) {cells : List Cell}
    (h : absRun 32 8 gs gd body ⟨0, 0, []⟩ = some ⟨gs, gd, cells⟩) (hl : cells.length = gd) (hok : okCells b gs cells = true)
    (src : Mem 32) (k : Nat) (m0 : Mem 8) (hS : k * gs ≤ src.len) (hD : k * gd ≤ m0.len) :
    ∃ s', runLoop src body k ⟨0, 0, m0⟩ = some s' ∧ s'.sp = k * gs ∧ s'.dp = k * gd ∧ s'.dst.len = m0.len ∧
      (∀ c, c < k * gd → ∀ t, t < 8 → GoodBit b (k * gs) src c t ((s'.dst.get c).getLsbD t)) ∧
      (∀ i, k * gd ≤ i → s'.dst.get i = m0.get i) := by
  induction k with
  | zero => exact ⟨_, rfl, by simp, by simp, rfl, by simp, fun _ _ => rfl⟩
  | succ k ih =>
    rw [Nat.add_mul, Nat.one_mul] at hS hD
    obtain ⟨s1, e1, a1, a2, a3, a4, a5⟩ := ih (by omega) (by omega)
    obtain ⟨s2, e2, b1, b2, b3, b4, b5⟩ := piece_prefix hb src (k * gs) (k * gd) (by rw [Nat.mul_assoc, hg, Nat.mul_assoc])
      s1.dst hS (by rw [a3]; exact hD) body h hl hok
    have hs1 : s1 = ⟨k * gs, k * gd, s1.dst⟩ := by rw [← a1, ← a2]
    refine ⟨s2, ?_, ?_, ?_, b3.trans a3, ?_, ?_⟩
    · rw [runLoop_snoc, e1, Option.bind_some, hs1, e2]
    · rw [b1, Nat.add_mul, Nat.one_mul]
    · rw [b2, Nat.add_mul, Nat.one_mul]
    · intro c hc t ht
      rw [Nat.add_mul, Nat.one_mul] at hc ⊢
      by_cases hlt : c < k * gd
      · rw [b5 c (.inl hlt)]
        refine (a4 c hlt t ht).mono fun _ => ?_
        rw [Nat.div_lt_iff_lt_mul hb, Nat.mul_assoc, hg, ← Nat.mul_assoc]
        omega
      · obtain ⟨j, rfl⟩ := Nat.exists_eq_add_of_le (Nat.le_of_not_lt hlt)
        exact b4 j (by omega) t ht
    · intro i hi
      rw [Nat.add_mul, Nat.one_mul] at hi
      rw [b5 i (.inr hi), a5 i (by omega)]

theorem checkPrefix_sound {b gd : Nat} (p : Prog) (h : checkPrefix p b gd = true) (src : Mem 32) (dst : Mem 8) (n : Nat)
    (hS : n ≤ src.len) (hD : n / p.group * gd + tb b (n % p.group) ≤ dst.len) :
    ∃ m, p.run src dst n = some m ∧ m.len = dst.len ∧
      (∀ c, c < n / p.group * gd + tb b (n % p.group) → ∀ t, t < 8 → GoodBit b n src c t ((m.get c).getLsbD t)) ∧
      (∀ c, n / p.group * gd + tb b (n % p.group) ≤ c → m.get c = dst.get c) := by
  simp only [checkPrefix, Bool.and_eq_true, decide_eq_true_eq, List.all_eq_true, List.mem_range] at h
  obtain ⟨⟨⟨⟨hg0, hg⟩, hb⟩, hbody⟩, htail⟩ := h
  have hdm : n / p.group * p.group + n % p.group = n := by rw [Nat.mul_comm]; exact Nat.div_add_mod n p.group
  cases hA : absRun 32 8 p.group gd p.body ⟨0, 0, []⟩ with
  | none => rw [hA] at hbody; simp at hbody
  | some a =>
    rw [hA] at hbody
    obtain ⟨so, d, cells⟩ := a
    simp only [Bool.and_eq_true, decide_eq_true_eq] at hbody
    obtain ⟨⟨⟨rfl, rfl⟩, hl⟩, hok⟩ := hbody
    obtain ⟨s1, e1, a1, a2, a3, a4, a5⟩ := loop_prefix hb hg p.body hA hl hok src (n / p.group) dst (by omega) (by omega)
    have ht := htail _ (Nat.mod_lt n hg0)
    cases hB : absRun 32 8 (n % p.group) (tb b (n % p.group)) (p.tail.take (n % p.group)).flatten ⟨0, 0, []⟩ with
    | none => rw [hB] at ht; simp at ht
    | some a' =>
      rw [hB] at ht
      obtain ⟨so', d', cells'⟩ := a'
      simp only [Bool.and_eq_true, decide_eq_true_eq] at ht
      obtain ⟨hl', hok'⟩ := ht
      obtain ⟨s2, e2, b1, b2, b3, b4, b5⟩ := piece_prefix hb src (n / p.group * p.group) (n / p.group * d)
        (by rw [Nat.mul_assoc, hg, Nat.mul_assoc]) s1.dst (by omega) (by rw [a3]; exact hD) _ hB hl' hok'
      have hs1 : s1 = ⟨n / p.group * p.group, n / p.group * d, s1.dst⟩ := by rw [← a1, ← a2]
      refine ⟨s2.dst, ?_, b3.trans a3, ?_, ?_⟩
      · unfold Prog.run
        simp only [e1]
        rw [runTail_eq _ _ _ _ _ (by omega), show n - n / p.group * p.group = n % p.group by omega, hs1, e2]
      · intro c hc t ht
        by_cases hlt : c < n / p.group * d
        · rw [b5 c (.inl hlt)]
          refine (a4 c hlt t ht).mono fun _ => ?_
          rw [Nat.div_lt_iff_lt_mul hb, Nat.mul_assoc, hg, ← Nat.mul_assoc]
          omega
        · obtain ⟨j, rfl⟩ := Nat.exists_eq_add_of_le (Nat.le_of_not_lt hlt)
          rw [hdm] at b4
          exact b4 j (by omega) t ht
      · intro c hc
        rw [b5 c (.inr hc), a5 c (by omega)]

theorem chkp_pack2 : checkPrefix pack2 2 1 = true := by decide +kernel
theorem chkp_pack3 : checkPrefix pack3 3 3 = true := by decide +kernel
theorem chkp_pack4 : checkPrefix pack4 4 1 = true := by decide +kernel
theorem chkp_pack6 : checkPrefix pack6 6 3 = true := by decide +kernel
theorem chkp_pack8 : checkPrefix pack8 8 1 = true := by decide +kernel
theorem chkp_pack10 : checkPrefix pack10 10 5 = true := by decide +kernel
theorem chkp_pack12 : checkPrefix pack12 12 3 = true := by decide +kernel
theorem chkp_pack16 : checkPrefix pack16 16 2 = true := by decide +kernel

/-- `m` holds the packed form of the first `k` of `n` symbols; the bytes after the last of the `n` symbols equal `old`. -/
def HoldsPrefix (b k n : Nat) (sym : Nat → BitVec 32) (old m : Mem 8) : Prop :=
  m.len = old.len ∧
  (∀ j, j < k * b → byteBit m.get j = (sym (j / b)).getLsbD (j % b)) ∧
  (∀ c, bytesFor (n * b) ≤ c → m.get c = old.get c)

private theorem prefix_of_check {b gd : Nat} (p : Prog) (hp : packProg b = some p) (hb : 0 < b)
    (hc : checkPrefix p b gd = true) (hm : ∀ n, n / p.group * gd + tb b (n % p.group) = bytesFor (n * b))
    (k n : Nat) (hk : k ≤ n) (symbols : Mem 32) (dest : Mem 8) (hsym : ∀ i, i < k → (symbols.get i).toNat < 2 ^ b)
    (hs : n ≤ symbols.len) (hd : bytesFor (n * b) ≤ dest.len) :
    ∃ m, pack b dest symbols n = .ok m ∧ HoldsPrefix b k n symbols.get dest m := by
  obtain ⟨m, h1, h2, h3, h4⟩ := checkPrefix_sound p hc symbols dest n hs (by rw [hm]; exact hd)
  rw [hm] at h3 h4
  refine ⟨m, by simp [pack, hp, h1], h2, ?_, h4⟩
  intro j hj
  have hjn : j < n * b := Nat.lt_of_lt_of_le hj (Nat.mul_le_mul_right _ hk)
  have hlt : j / b < k := (Nat.div_lt_iff_lt_mul hb).mpr hj
  have e : j / 8 * 8 + j % 8 = j := by omega
  have := h3 (j / 8) (by unfold bytesFor; split <;> omega) (j % 8) (by omega)
  unfold GoodBit at this
  rw [e] at this
  exact this (by omega) (fun i hi => hsym i (by omega))

/-- C116: for every supported bit count, `n` arbitrary symbols of which the first `k` are below `2^b` are packed without
touching anything outside the arrays, and the stream of the first `k` symbols is as it should be. -/
theorem pack_prefix (b k n : Nat) (symbols : Mem 32) (dest : Mem 8) (hb : Supported b) (hk : k ≤ n)
    (hsym : ∀ i, i < k → (symbols.get i).toNat < 2 ^ b) (hs : n ≤ symbols.len) (hd : bufferSize n b ≤ dest.len) :
    ∃ m, pack b dest symbols n = .ok m ∧ HoldsPrefix b k n symbols.get dest m := by
  rw [bufferSize_eq] at hd
  unfold Supported at hb
  rcases hb with rfl | rfl | rfl | rfl | rfl | rfl | rfl | rfl
  · exact prefix_of_check pack2 rfl (by decide) chkp_pack2
      (by simp only [pack2, tb, bytesFor]; intro n; split <;> omega) k n hk symbols dest hsym hs hd
  · exact prefix_of_check pack3 rfl (by decide) chkp_pack3
      (by simp only [pack3, tb, bytesFor]; intro n; split <;> omega) k n hk symbols dest hsym hs hd
  · exact prefix_of_check pack4 rfl (by decide) chkp_pack4
      (by simp only [pack4, tb, bytesFor]; intro n; split <;> omega) k n hk symbols dest hsym hs hd
  · exact prefix_of_check pack6 rfl (by decide) chkp_pack6
      (by simp only [pack6, tb, bytesFor]; intro n; split <;> omega) k n hk symbols dest hsym hs hd
  · exact prefix_of_check pack8 rfl (by decide) chkp_pack8
      (by simp only [pack8, tb, bytesFor]; intro n; split <;> omega) k n hk symbols dest hsym hs hd
  · exact prefix_of_check pack10 rfl (by decide) chkp_pack10
      (by simp only [pack10, tb, bytesFor]; intro n; split <;> omega) k n hk symbols dest hsym hs hd
  · exact prefix_of_check pack12 rfl (by decide) chkp_pack12
      (by simp only [pack12, tb, bytesFor]; intro n; split <;> omega) k n hk symbols dest hsym hs hd
  · exact prefix_of_check pack16 rfl (by decide) chkp_pack16
      (by simp only [pack16, tb, bytesFor]; intro n; split <;> omega) k n hk symbols dest hsym hs hd

/-- C116: packing and unpacking returns the first `k` symbols, whatever follows them. -/
theorem round_trip_prefix (b k n : Nat) (symbols : Mem 32) (dest : Mem 8) (out : Mem 32) (hb : Supported b) (hk : k ≤ n)
    (hsym : ∀ i, i < k → (symbols.get i).toNat < 2 ^ b) (hs : n ≤ symbols.len) (hd : bufferSize n b ≤ dest.len)
    (ho : n ≤ out.len) :
    ∃ m u, pack b dest symbols n = .ok m ∧ unpack b out m n = .ok u ∧ (∀ i, i < k → u.get i = symbols.get i) ∧
      (∀ i, i < n → (u.get i).toNat < 2 ^ b) ∧ ∀ i, n ≤ i → u.get i = out.get i := by
  have hb0 : 0 < b := by unfold Supported at hb; omega
  obtain ⟨m, h1, h2, h3, -⟩ := pack_prefix b k n symbols dest hb hk hsym hs hd
  obtain ⟨u, g1, g2, g3, g4⟩ := unpack_stream b n out m hb ho (by rw [h2]; exact hd)
  refine ⟨m, u, h1, g1, fun i hi => ?_, fun i hi => ?_, g4⟩
  · refine BitVec.eq_of_getLsbD_eq fun t ht => ?_
    rw [g3 i (by omega) t ht]
    split
    · rename_i htb
      have hlt : i * b + t < k * b := by
        have : (i + 1) * b ≤ k * b := Nat.mul_le_mul_right _ hi
        rw [Nat.add_mul] at this
        omega
      rw [h3 _ hlt, Nat.mul_comm, Nat.mul_add_div hb0, Nat.mul_add_mod, Nat.div_eq_of_lt htb, Nat.mod_eq_of_lt htb, Nat.add_zero]
    · rename_i htb
      rw [BitVec.getLsbD, Nat.testBit_lt_two_pow (Nat.lt_of_lt_of_le (hsym i hi) (Nat.pow_le_pow_right (by decide) (by omega)))]
  · refine Nat.lt_of_not_le fun hge => ?_
    obtain ⟨t, ht, hv⟩ := Nat.exists_ge_and_testBit_of_ge_two_pow hge
    have h32 : t < 32 := by
      refine Nat.lt_of_not_le fun hx => ?_
      have := BitVec.getLsbD_of_ge (u.get i) t hx
      rw [BitVec.getLsbD, hv] at this
      cases this
    have := g3 i hi t h32
    rw [if_neg (by omega), BitVec.getLsbD, hv] at this
    cases this

/-- Four symbols of three bits, of which the third is too large: the first two are kept. -/
example : ∃ m u, pack 3 ⟨2, fun _ => 0xFF#8⟩ ⟨4, fun i => if i = 2 then 0xFFFFFFFF#32 else 5#32⟩ 4 = .ok m ∧
    unpack 3 ⟨4, fun _ => 0#32⟩ m 4 = .ok u ∧ u.get 0 = 5#32 ∧ u.get 1 = 5#32 := by
  obtain ⟨m, u, h1, h2, h3, -⟩ := round_trip_prefix 3 2 4 ⟨4, fun i => if i = 2 then 0xFFFFFFFF#32 else 5#32⟩
    ⟨2, fun _ => 0xFF#8⟩ ⟨4, fun _ => 0#32⟩ (by unfold Supported; omega) (by omega)
    (by intro i hi; simp only; rw [if_neg (by omega)]; decide) (by decide) (by decide) (by decide)
  exact ⟨m, u, h1, h2, h3 0 (by omega), h3 1 (by omega)⟩

/-- The symbols after one that is too large are not kept: 2 bits, the first symbol 4 adds to the second. -/
theorem too_large_damages : ∃ m u, pack 2 ⟨1, fun _ => 0#8⟩ ⟨2, fun i => if i = 0 then 4#32 else 0#32⟩ 2 = .ok m ∧
    unpack 2 ⟨2, fun _ => 0#32⟩ m 2 = .ok u ∧ u.get 1 = 1#32 :=
  ⟨_, _, rfl, rfl, rfl⟩

end Dysco.BytePacker
