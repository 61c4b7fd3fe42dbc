import Verif.BytePackerLemmas

/-!
# Properties C01–C03 of the byte packer

Specification: `n` symbols of `b` bits form a stream of `n*b` bits, first symbol first, least
significant bit first; the stream is cut into bytes, least significant bit first, and padded with
zero bits. `Supported` lists the documented bit counts.
-/

namespace Dysco.BytePacker

/-- Documented bit counts (bytepacker.h:11-27, README). -/
def Supported (b : Nat) : Prop :=
  b = 2 ∨ b = 3 ∨ b = 4 ∨ b = 6 ∨ b = 8 ∨ b = 10 ∨ b = 12 ∨ b = 16

/-- Bit `k` of the stream made of the first `n` symbols of `b` bits; zero after the end. -/
def specBit (b n : Nat) (sym : Nat → BitVec 32) (k : Nat) : Bool :=
  if k < n * b then (sym (k / b)).getLsbD (k % b) else false

/-- Number of bytes needed for `k` bits. -/
def bytesFor (k : Nat) : Nat := k / 8 + (if k % 8 = 0 then 0 else 1)

/-- `m` holds the packed form of the first `n` symbols of `sym`, and apart from that equals `old`. -/
def HoldsPacked (b n : Nat) (sym : Nat → BitVec 32) (old m : Mem 8) : Prop :=
  m.len = old.len ∧
  (∀ c, c < bytesFor (n * b) → ∀ t, t < 8 → (m.get c).getLsbD t = specBit b n sym (8 * c + t)) ∧
  (∀ c, bytesFor (n * b) ≤ c → m.get c = old.get c)

theorem bufferSize_eq (n b : Nat) : bufferSize n b = bytesFor (n * b) := by
  unfold bufferSize bytesFor
  split <;> omega

private theorem hz_of_lt {b n : Nat} {symbols : Mem 32} (h : ∀ i, i < n → (symbols.get i).toNat < 2 ^ b)
    (i : Nat) (hi : i < n) (j : Nat) (hj : b ≤ j) : (symbols.get i).getLsbD j = false := by
  rw [BitVec.getLsbD]
  exact Nat.testBit_lt_two_pow (Nat.lt_of_lt_of_le (h i hi) (Nat.pow_le_pow_right (by decide) hj))

private theorem pack_of_check {b gs gd : Nat} (p : Prog) (hp : packProg b = some p) (hb : 0 < b)
    (hc : check p b 8 8 gs gd id (tb b) = true)
    (hn : ∀ n, n / p.group * gs + n % p.group = n)
    (hm : ∀ n, n / p.group * gd + tb b (n % p.group) = bytesFor (n * b))
    (n : Nat) (symbols : Mem 32) (dest : Mem 8)
    (hsym : ∀ i, i < n → (symbols.get i).toNat < 2 ^ b)
    (hs : n ≤ symbols.len) (hd : bytesFor (n * b) ≤ dest.len) :
    ∃ m, pack b dest symbols n = .ok m ∧ HoldsPacked b n symbols.get dest m := by
  obtain ⟨m, h1, h2, h3, h4⟩ := check_sound (ws := 32) (wd := 8) (by omega) p hc
    symbols dest n (by rw [id, hn]; exact hs) (by rw [hm]; exact hd)
    (by rw [id, hn]; exact hz_of_lt hsym)
  rw [hm] at h3 h4
  rw [id, hn] at h3
  refine ⟨m, by simp [pack, hp, h1], h2, ?_, h4⟩
  intro c hc t ht
  rw [h3 c hc t ht]
  unfold streamBit specBit
  rw [Nat.mul_comm c 8]
  have e : (8 * c + t) / b < n ↔ 8 * c + t < n * b := Nat.div_lt_iff_lt_mul hb
  by_cases h : 8 * c + t < n * b
  · simp [h, ht, e.mpr h]
  · have h' : ¬ (8 * c + t) / b < n := fun hx => h (e.mp hx)
    rw [decide_eq_false (fun hx => h' hx.2), if_neg h, Bool.false_and]

/-- **C02 (packing).** For every supported bit count, every count `n`, every in-range symbol array
and every destination of at least `bufferSize` bytes with arbitrary old contents, `pack` finishes
without touching anything outside the two arrays, and leaves exactly the bit stream. -/
theorem pack_stream (b n : Nat) (symbols : Mem 32) (dest : Mem 8) (hb : Supported b)
    (hsym : ∀ i, i < n → (symbols.get i).toNat < 2 ^ b)
    (hs : n ≤ symbols.len) (hd : bufferSize n b ≤ dest.len) :
    ∃ m, pack b dest symbols n = .ok m ∧ HoldsPacked b n symbols.get dest m := by
  rw [bufferSize_eq] at hd
  unfold Supported at hb
  rcases hb with rfl | rfl | rfl | rfl | rfl | rfl | rfl | rfl
  · exact pack_of_check pack2 rfl (by decide) chk_pack2 (by simp only [pack2]; omega)
      (by simp only [pack2, tb, bytesFor]; intro n; split <;> omega) n symbols dest hsym hs hd
  · exact pack_of_check pack3 rfl (by decide) chk_pack3 (by simp only [pack3]; omega)
      (by simp only [pack3, tb, bytesFor]; intro n; split <;> omega) n symbols dest hsym hs hd
  · exact pack_of_check pack4 rfl (by decide) chk_pack4 (by simp only [pack4]; omega)
      (by simp only [pack4, tb, bytesFor]; intro n; split <;> omega) n symbols dest hsym hs hd
  · exact pack_of_check pack6 rfl (by decide) chk_pack6 (by simp only [pack6]; omega)
      (by simp only [pack6, tb, bytesFor]; intro n; split <;> omega) n symbols dest hsym hs hd
  · exact pack_of_check pack8 rfl (by decide) chk_pack8 (by simp only [pack8]; omega)
      (by simp only [pack8, tb, bytesFor]; intro n; split <;> omega) n symbols dest hsym hs hd
  · exact pack_of_check pack10 rfl (by decide) chk_pack10 (by simp only [pack10]; omega)
      (by simp only [pack10, tb, bytesFor]; intro n; split <;> omega) n symbols dest hsym hs hd
  · exact pack_of_check pack12 rfl (by decide) chk_pack12 (by simp only [pack12]; omega)
      (by simp only [pack12, tb, bytesFor]; intro n; split <;> omega) n symbols dest hsym hs hd
  · exact pack_of_check pack16 rfl (by decide) chk_pack16 (by simp only [pack16]; omega)
      (by simp only [pack16, tb, bytesFor]; intro n; split <;> omega) n symbols dest hsym hs hd

/-- Bit `k` of a byte array read as a stream. -/
def byteBit (p : Nat → BitVec 8) (k : Nat) : Bool := (p (k / 8)).getLsbD (k % 8)

/-- `m` holds the `n` symbols of `b` bits that the byte stream `p` describes; the rest is as in
`old`. -/
def HoldsUnpacked (b n : Nat) (p : Nat → BitVec 8) (old m : Mem 32) : Prop :=
  m.len = old.len ∧
  (∀ i, i < n → ∀ t, t < 32 →
    (m.get i).getLsbD t = if t < b then byteBit p (i * b + t) else false) ∧
  (∀ i, n ≤ i → m.get i = old.get i)

private theorem unpack_of_check {b gs gd : Nat} (p : Prog) (hp : unpackProg b = some p)
    (hc : check p 8 b 32 gs gd (tb b) id = true)
    (hn : ∀ n, n / p.group * gd + n % p.group = n)
    (hm : ∀ n, n / p.group * gs + tb b (n % p.group) = bytesFor (n * b))
    (n : Nat) (symbols : Mem 32) (packed : Mem 8)
    (hs : n ≤ symbols.len) (hd : bytesFor (n * b) ≤ packed.len) :
    ∃ m, unpack b symbols packed n = .ok m ∧ HoldsUnpacked b n packed.get symbols m := by
  obtain ⟨m, h1, h2, h3, h4⟩ := check_sound (ws := 8) (wd := 32) (by omega) p hc
    packed symbols n (by rw [hm]; exact hd) (by rw [id, hn]; exact hs)
    (by intro i _ j hj; exact BitVec.getLsbD_of_ge _ _ hj)
  rw [hm, id, hn] at h3
  rw [id, hn] at h4
  refine ⟨m, by simp [unpack, hp, h1], h2, ?_, h4⟩
  intro c hc t ht
  rw [h3 c hc t ht]
  unfold streamBit byteBit
  by_cases h : t < b
  · have : (c * b + t) / 8 < bytesFor (n * b) := by
      have h5 : (c + 1) * b ≤ n * b := Nat.mul_le_mul_right _ hc
      rw [Nat.add_mul] at h5
      unfold bytesFor
      split <;> omega
    simp [h, this]
  · simp [h]

/-- **C02 (unpacking).** For every supported bit count, every count and every packed buffer of at
least `bufferSize` bytes (any contents), `unpack` finishes without touching anything outside the two
arrays, reads only the first `bufferSize` bytes and sets exactly the first `n` symbols to the
consecutive `b`-bit pieces of the stream. -/
theorem unpack_stream (b n : Nat) (symbols : Mem 32) (packed : Mem 8) (hb : Supported b)
    (hs : n ≤ symbols.len) (hd : bufferSize n b ≤ packed.len) :
    ∃ m, unpack b symbols packed n = .ok m ∧ HoldsUnpacked b n packed.get symbols m := by
  rw [bufferSize_eq] at hd
  unfold Supported at hb
  rcases hb with rfl | rfl | rfl | rfl | rfl | rfl | rfl | rfl
  · exact unpack_of_check unpack2 rfl chk_unpack2 (by simp only [unpack2]; omega)
      (by simp only [unpack2, tb, bytesFor]; intro n; split <;> omega) n symbols packed hs hd
  · exact unpack_of_check unpack3 rfl chk_unpack3 (by simp only [unpack3]; omega)
      (by simp only [unpack3, tb, bytesFor]; intro n; split <;> omega) n symbols packed hs hd
  · exact unpack_of_check unpack4 rfl chk_unpack4 (by simp only [unpack4]; omega)
      (by simp only [unpack4, tb, bytesFor]; intro n; split <;> omega) n symbols packed hs hd
  · exact unpack_of_check unpack6 rfl chk_unpack6 (by simp only [unpack6]; omega)
      (by simp only [unpack6, tb, bytesFor]; intro n; split <;> omega) n symbols packed hs hd
  · exact unpack_of_check unpack8 rfl chk_unpack8 (by simp only [unpack8]; omega)
      (by simp only [unpack8, tb, bytesFor]; intro n; split <;> omega) n symbols packed hs hd
  · exact unpack_of_check unpack10 rfl chk_unpack10 (by simp only [unpack10]; omega)
      (by simp only [unpack10, tb, bytesFor]; intro n; split <;> omega) n symbols packed hs hd
  · exact unpack_of_check unpack12 rfl chk_unpack12 (by simp only [unpack12]; omega)
      (by simp only [unpack12, tb, bytesFor]; intro n; split <;> omega) n symbols packed hs hd
  · exact unpack_of_check unpack16 rfl chk_unpack16 (by simp only [unpack16]; omega)
      (by simp only [unpack16, tb, bytesFor]; intro n; split <;> omega) n symbols packed hs hd

/-- The stream determines the symbols. -/
theorem unpacked_of_packed {b n : Nat} {sym : Nat → BitVec 32} {old m : Mem 8} {old' m' : Mem 32}
    (hb : 0 < b) (hsym : ∀ i, i < n → (sym i).toNat < 2 ^ b)
    (h1 : HoldsPacked b n sym old m) (h2 : HoldsUnpacked b n m.get old' m') :
    ∀ i, i < n → m'.get i = sym i := by
  intro i hi
  apply BitVec.eq_of_getLsbD_eq
  intro t ht
  rw [h2.2.1 i hi t ht]
  by_cases h : t < b
  · rw [if_pos h]
    have h5 : (i + 1) * b ≤ n * b := Nat.mul_le_mul_right _ hi
    rw [Nat.add_mul] at h5
    have h6 : (i * b + t) / 8 < bytesFor (n * b) := by
      unfold bytesFor; split <;> omega
    unfold byteBit
    rw [h1.2.1 _ h6 _ (Nat.mod_lt _ (by decide)), Nat.div_add_mod, specBit, if_pos (by omega)]
    rw [Nat.add_comm, Nat.add_mul_div_right _ _ hb, Nat.add_mul_mod_self_right,
      Nat.div_eq_of_lt h, Nat.mod_eq_of_lt h, Nat.zero_add]
  · rw [if_neg h, BitVec.getLsbD]
    exact (Nat.testBit_lt_two_pow
      (Nat.lt_of_lt_of_le (hsym i hi) (Nat.pow_le_pow_right (by decide) (by omega)))).symm

/-- **C01.** Packing in-range symbols into a buffer of any previous contents and unpacking into an
array of any previous contents gives the same symbols back and leaves the rest of that array alone. -/
theorem pack_unpack_roundtrip (b n : Nat) (symbols out : Mem 32) (dest : Mem 8) (hb : Supported b)
    (hsym : ∀ i, i < n → (symbols.get i).toNat < 2 ^ b)
    (hs : n ≤ symbols.len) (ho : n ≤ out.len) (hd : bufferSize n b ≤ dest.len) :
    ∃ packed out', pack b dest symbols n = .ok packed ∧ unpack b out packed n = .ok out' ∧
      (∀ i, i < n → out'.get i = symbols.get i) ∧ (∀ i, n ≤ i → out'.get i = out.get i) := by
  obtain ⟨m, hm, hp⟩ := pack_stream b n symbols dest hb hsym hs hd
  obtain ⟨m', hm', hu⟩ := unpack_stream b n out m hb ho (by rw [hp.1]; exact hd)
  refine ⟨m, m', hm, hm', ?_, hu.2.2⟩
  have hb0 : 0 < b := by
    unfold Supported at hb
    omega
  exact unpacked_of_packed hb0 hsym hp hu

/-- **C02 (determinism).** The packed bytes do not depend on what the buffer held before: two runs
on different buffers agree on all `bufferSize` bytes. -/
theorem pack_independent_of_old (b n : Nat) (symbols : Mem 32) (d1 d2 m1 m2 : Mem 8)
    (hb : Supported b) (hsym : ∀ i, i < n → (symbols.get i).toNat < 2 ^ b) (hs : n ≤ symbols.len)
    (h1 : bufferSize n b ≤ d1.len) (h2 : bufferSize n b ≤ d2.len)
    (e1 : pack b d1 symbols n = .ok m1) (e2 : pack b d2 symbols n = .ok m2) :
    ∀ c, c < bufferSize n b → m1.get c = m2.get c := by
  obtain ⟨m1', q1, p1⟩ := pack_stream b n symbols d1 hb hsym hs h1
  obtain ⟨m2', q2, p2⟩ := pack_stream b n symbols d2 hb hsym hs h2
  rw [e1] at q1; rw [e2] at q2
  cases q1; cases q2
  intro c hc
  rw [bufferSize_eq] at hc
  apply BitVec.eq_of_getLsbD_eq
  intro t ht
  rw [p1.2.1 c hc t ht, p2.2.1 c hc t ht]

/-- **C03 (refused).** A bit count outside the documented set raises an error and nothing is
written, for packing and unpacking, whatever the count and the arrays. -/
theorem unsupported_refused (b n : Nat) (hb : ¬ Supported b) (symbols out : Mem 32)
    (dest packed : Mem 8) :
    pack b dest symbols n = .error dest ∧ unpack b out packed n = .error out := by
  have h1 : packProg b = none := by
    unfold packProg
    split <;> first | rfl | exact absurd (by unfold Supported; omega) hb
  have h2 : unpackProg b = none := by
    unfold unpackProg
    split <;> first | rfl | exact absurd (by unfold Supported; omega) hb
  constructor
  · simp [pack, h1]
  · simp [unpack, h2]

/-- **C03 (accepted).** A documented bit count never raises the error, for any count and arrays
(even ones that are too small: then the outcome is not an error but undefined). -/
theorem supported_accepted (b n : Nat) (hb : Supported b) (symbols out : Mem 32)
    (dest packed m : Mem 8) (m' : Mem 32) :
    pack b dest symbols n ≠ .error m ∧ unpack b out packed n ≠ .error m' := by
  unfold Supported at hb
  constructor
  · unfold pack
    rcases hb with rfl | rfl | rfl | rfl | rfl | rfl | rfl | rfl <;>
      simp only [packProg] <;> split <;> simp
  · unfold unpack
    rcases hb with rfl | rfl | rfl | rfl | rfl | rfl | rfl | rfl <;>
      simp only [unpackProg] <;> split <;> simp

/-- The precondition on the symbols in C01/C02 is needed: with 2 bits, symbols `[4, 0]` are not
read back as packed (the first symbol spills into the second). -/
theorem out_of_range_symbol_corrupts_neighbour :
    ∃ (symbols out : Mem 32) (dest packed : Mem 8) (out' : Mem 32),
      pack 2 dest symbols 2 = .ok packed ∧ unpack 2 out packed 2 = .ok out' ∧
      symbols.get 1 = 0 ∧ out'.get 1 = 1 := by
  refine ⟨⟨2, fun i => if i = 0 then 4 else 0⟩, ⟨2, fun _ => 0⟩, ⟨1, fun _ => 0⟩, _, _, rfl, rfl, ?_, ?_⟩
  · rfl
  · decide

/-! ## The hypotheses are satisfiable -/

/-- 5 symbols of 3 bits (a tail of 5), with non-zero old contents. -/
example : ∃ packed, pack 3 ⟨2, fun _ => 0xFF⟩ ⟨5, fun i => BitVec.ofNat 32 (i + 3)⟩ 5 = .ok packed ∧
    HoldsPacked 3 5 (fun i => BitVec.ofNat 32 (i + 3)) ⟨2, fun _ => 0xFF⟩ packed :=
  pack_stream 3 5 ⟨5, fun i => BitVec.ofNat 32 (i + 3)⟩ ⟨2, fun _ => 0xFF⟩ (by unfold Supported; omega)
    (by intro i hi; simp only [BitVec.toNat_ofNat]; omega) (by decide) (by decide)

example : ∃ packed out', pack 10 ⟨9, fun _ => 7⟩ ⟨7, fun i => BitVec.ofNat 32 (1023 - i)⟩ 7 = .ok packed ∧
    unpack 10 ⟨8, fun _ => 5⟩ packed 7 = .ok out' ∧
    (∀ i, i < 7 → out'.get i = BitVec.ofNat 32 (1023 - i)) ∧ (∀ i, 7 ≤ i → out'.get i = 5) :=
  pack_unpack_roundtrip 10 7 ⟨7, fun i => BitVec.ofNat 32 (1023 - i)⟩ ⟨8, fun _ => 5⟩ ⟨9, fun _ => 7⟩
    (by unfold Supported; omega)
    (by intro i hi; simp only [BitVec.toNat_ofNat]; omega) (by decide) (by decide) (by decide)

example : ¬ Supported 5 ∧ ¬ Supported 0 ∧ ¬ Supported 32 := by unfold Supported; omega

example : ∃ m, unpack 6 ⟨3, fun _ => 1⟩ ⟨3, fun _ => 0xA5⟩ 3 = .ok m ∧
    HoldsUnpacked 6 3 (fun _ => 0xA5) ⟨3, fun _ => 1⟩ m :=
  unpack_stream 6 3 ⟨3, fun _ => 1⟩ ⟨3, fun _ => 0xA5⟩ (by unfold Supported; omega)
    (by decide) (by decide)

/-- What the destination held before makes no difference to the packed bytes. -/
example (m1 m2 : Mem 8) (e1 : pack 3 ⟨2, fun _ => 0xFF⟩ ⟨5, fun i => BitVec.ofNat 32 (i + 3)⟩ 5 = .ok m1)
    (e2 : pack 3 ⟨4, fun _ => 0⟩ ⟨5, fun i => BitVec.ofNat 32 (i + 3)⟩ 5 = .ok m2) :
    ∀ c, c < 2 → m1.get c = m2.get c :=
  pack_independent_of_old 3 5 ⟨5, fun i => BitVec.ofNat 32 (i + 3)⟩ _ _ m1 m2 (by unfold Supported; omega)
    (by intro i hi; simp only [BitVec.toNat_ofNat]; omega) (by decide) (by decide) (by decide) e1 e2

example : pack 5 ⟨2, fun _ => 0xFF⟩ ⟨3, fun _ => 1⟩ 3 = .error ⟨2, fun _ => 0xFF⟩ :=
  (unsupported_refused 5 3 (by unfold Supported; omega) ⟨3, fun _ => 1⟩ ⟨3, fun _ => 1⟩ ⟨2, fun _ => 0xFF⟩
    ⟨2, fun _ => 0xFF⟩).1

example (m : Mem 8) : pack 12 ⟨2, fun _ => 0xFF⟩ ⟨3, fun _ => 1⟩ 3 ≠ .error m :=
  (supported_accepted 12 3 (by unfold Supported; omega) ⟨3, fun _ => 1⟩ ⟨3, fun _ => 1⟩ ⟨2, fun _ => 0xFF⟩
    ⟨2, fun _ => 0xFF⟩ m ⟨0, fun _ => 0⟩).1

end Dysco.BytePacker
