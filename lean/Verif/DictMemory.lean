import Verif.UVectorLemmas
import Verif.StochasticLemmas

/-!
# The memory of the dictionaries of a `StochasticEncoder`

The model of the quantiser (StochasticModel) has tables with a capacity. Here the same tables are built in the memory
model of `UVector`: the constructors write through raw pointers, and the NaN for non-finite values is written *after* the
end of the decode dictionary, in reserved memory. The encoder is then returned by value from the factory functions and
given to `new StochasticEncoder(...)`.
-/

namespace Dysco.DictMem
open UVec Stochastic

/-! ## Model -/

/-- The loops of stochasticencoder.cc:85-95, 97-109, 130-140, 156-168 on memory: `pe`, `pd` are the blocks of the two
dictionaries, `ei` and `di` the positions of `encItem` and `decItem`, `i` the counter; the result are the positions.
`F` as in `Stochastic.fillStep`. -/
def fill (q : Nat) (F : ℚ → Fl) (pe pd : Option Nat) : Nat → Nat → Nat → Nat → M Fl (Nat × Nat)
  | 0, _, ei, di => pure (ei, di)
  | k + 1, i, ei, di => do
    if i ≠ 0 then store pe ei (some (F (i / ((q - 1 : Nat) : ℚ)))) else pure ()
    store pd di (some (F ((i + 1 / 2) / ((q - 1 : Nat) : ℚ))))
    fill q F pe pd k (i + 1) (if i ≠ 0 then ei + 1 else ei) (di + 1)

/-- The body of the constructors after `reserve`, stochasticencoder.cc:82-121, 128-142, 150-170. -/
def body (q : Nat) (F : ℚ → Fl) (pe pd : Option Nat) : M Fl Unit := do
  let p ← fill q F pe pd (q - 1) 0 0 0
  store pe p.1 (some (.fin fltMax))
  store pd p.2 (some .nan)

/-- `m` on the memory only. Not in the code. -/
def onHeap (m : M Fl Unit) (P : Pool Fl) : UVec.Res (Pool Fl) Unit :=
  match m ⟨P.heap, Vec.empty⟩ with
  | .ok a s => .ok a ⟨s.heap, P.vecs⟩
  | .throw s => .throw ⟨s.heap, P.vecs⟩
  | .ub => .ub

/-- After an exception the vectors that were made are destroyed, and the exception goes on. C++; not in the code. -/
def unwind (is : List Nat) (P : Pool Fl) : UVec.Res (Pool Fl) Unit :=
  match is with
  | [] => .throw P
  | i :: is =>
    match Pool.destroy i P with
    | .ok _ Q => unwind is Q
    | .throw Q => unwind is Q
    | .ub => .ub

/-- Construction of an encoder, stochasticencoder.cc:68-71, 80 and stochasticencoder.h:45-60, 151-153: encoder `k` has
the vectors `2k` (`_encDictionary`) and `2k+1` (`_decDictionary`). -/
def build (q : Nat) (F : ℚ → Fl) (k : Nat) (P : Pool Fl) : UVec.Res (Pool Fl) Unit :=
  match Pool.new (UVec.construct (q - 1)) (2 * k) P with
  | .throw P => .throw P
  | .ub => .ub
  | .ok _ P1 =>
    match Pool.new (UVec.construct (q - 1)) (2 * k + 1) P1 with
    | .throw Q => unwind [2 * k] Q
    | .ub => .ub
    | .ok _ P2 =>
      match Pool.on (UVec.reserve q) (2 * k + 1) P2 with
      | .throw Q => unwind [2 * k + 1, 2 * k] Q
      | .ub => .ub
      | .ok _ P3 =>
        match P3.vecs (2 * k), P3.vecs (2 * k + 1) with
        | some v, some w => onHeap (body q F v.ptr w.ptr) P3
        | _, _ => .ub

/-- Implicit move constructor of `StochasticEncoder` (dictionary.h and stochasticencoder.h declare none): encoder `k'` is
made from encoder `k`, member by member. -/
def moveEncoder (k' k : Nat) (P : Pool Fl) : UVec.Res (Pool Fl) Unit :=
  match Pool.moveOf (2 * k') (2 * k) P with
  | .ok _ Q => Pool.moveOf (2 * k' + 1) (2 * k + 1) Q
  | r => r

/-- Implicit copy constructor of stochasticencoder.h:32. -/
def copyEncoder (k' k : Nat) (P : Pool Fl) : UVec.Res (Pool Fl) Unit :=
  match Pool.copyOf (2 * k') (2 * k) P with
  | .ok _ Q =>
    match Pool.copyOf (2 * k' + 1) (2 * k + 1) Q with
    | .throw R => unwind [2 * k'] R
    | r => r
  | r => r

/-- Implicit destructor of stochasticencoder.h:32. -/
def destroyEncoder (k : Nat) (P : Pool Fl) : UVec.Res (Pool Fl) Unit :=
  match Pool.destroy (2 * k + 1) P with
  | .ok _ Q => Pool.destroy (2 * k) Q
  | r => r

/-- Returning encoder `k` through the temporaries `ks`: every one is move constructed from the one before, which is then
destroyed (`return encoder`, stochasticencoder.h:49, 57; `new StochasticEncoder<float>(...)`, dyscodatacolumn.cc:40-49). With
elision the list is shorter or empty. -/
def deliver (k : Nat) : List Nat → Pool Fl → UVec.Res (Pool Fl) Unit
  | [], P => .ok () P
  | k' :: ks, P =>
    match moveEncoder k' k P with
    | .ok _ Q =>
      match destroyEncoder k Q with
      | .ok _ R => deliver k' ks R
      | r => r
    | r => r

/-- `Decode(symbol)` of encoder `k`, stochasticencoder.h:143, dictionary.h:182: `_values[sym]`. -/
def decodeMem (k s : Nat) (P : Pool Fl) : UVec.Res (Pool Fl) (Option Fl) := Pool.on (readAt s) (2 * k + 1) P

/-- `*it` for position `i` of the encode dictionary of encoder `k`, stochasticencoder.h:103-123. -/
def boundMem (k i : Nat) (P : Pool Fl) : UVec.Res (Pool Fl) (Option Fl) := Pool.on (readAt i) (2 * k) P

/-! ## Specification -/

/-- Encoder object `k` behaves as `e`: sizes, boundaries, and `Decode` with the value of `e`, undefined exactly where it is
undefined for `e`. -/
structure Represents (P : Pool Fl) (k : Nat) (e : Encoder) : Prop where
  encSize : ∃ v, P.vecs (2 * k) = some v ∧ v.size = e.n
  decSize : ∃ v, P.vecs (2 * k + 1) = some v ∧ v.size = e.n
  bound : ∀ i, i < e.n → boundMem k i P = .ok (some (e.bound i)) P
  decode : ∀ s, decodeMem k s P = match e.decode s with
    | some x => .ok (some x) P
    | none => .ub

/-! ## Proofs -/

/-- The memory behind `Represents`. -/
structure Stored (P : Pool Fl) (k : Nat) (e : Encoder) (pe pd : Nat) (be bd : Buf (Option Fl)) : Prop where
  vEnc : P.vecs (2 * k) = some ⟨some pe, e.n, e.n⟩
  vDec : P.vecs (2 * k + 1) = some ⟨some pd, e.n, e.cap⟩
  ne : pe ≠ pd
  mEnc : P.heap.mem pe = some be
  mDec : P.heap.mem pd = some bd
  lEnc : be.len = e.n
  lDec : bd.len = e.cap
  cEnc : ∀ i, i < e.n → be.get i = some (e.bound i)
  cDec : ∀ i, i < e.cap → bd.get i = some (e.level i)

theorem setAt_self {β : Type} (f : Nat → β) (i : Nat) : setAt f i (f i) = f := by
  funext j; simp only [setAt]; split
  · next h => rw [h]
  · rfl

theorem on_readAt {P : Pool Fl} {i p s n c : Nat} {b : Buf (Option Fl)} (hv : P.vecs i = some ⟨some p, n, c⟩)
    (hb : P.heap.mem p = some b) :
    Pool.on (readAt s) i P = if s < b.len then .ok (b.get s) P else .ub := by
  simp only [Pool.on, hv, readAt, bind_apply, self_apply, load, Option.bind_some, hb]
  split
  · next h =>
    split at h
    · cases h
      rw [if_pos ‹_›]
      simp only
      rw [show setAt P.vecs i (some (⟨some p, n, c⟩ : Vec)) = P.vecs by rw [← hv]; exact setAt_self _ _]
    · cases h
  · next h => split at h <;> cases h
  · next h =>
    split at h
    · cases h
    · rw [if_neg ‹_›]

theorem Stored.represents {P : Pool Fl} {k : Nat} {e : Encoder} {pe pd : Nat} {be bd : Buf (Option Fl)}
    (h : Stored P k e pe pd be bd) : Represents P k e where
  encSize := ⟨_, h.vEnc, rfl⟩
  decSize := ⟨_, h.vDec, rfl⟩
  bound := by
    intro i hi
    rw [boundMem, on_readAt h.vEnc h.mEnc, if_pos (by rw [h.lEnc]; exact hi), h.cEnc i hi]
  decode := by
    intro s
    rw [decodeMem, on_readAt h.vDec h.mDec, h.lDec]
    simp only [Encoder.decode]
    split
    · next hs => simp only [h.cDec s hs]
    · rfl

/-- The memory holds what the loop of the table model has written so far. -/
structure Agree (q : Nat) (f : Fill) (be bd : Buf (Option Fl)) : Prop where
  lEnc : be.len = q - 1
  lDec : bd.len = q
  cEnc : ∀ j, j < f.ei → be.get j = some (f.enc j)
  cDec : ∀ j, j < f.di → bd.get j = some (f.dec j)

/-- Writing a cell. -/
def cell (b : Buf (Option Fl)) (i : Nat) (x : Fl) : Buf (Option Fl) := ⟨b.len, fun j => if j = i then some x else b.get j⟩

/-- The memory of the two dictionaries replaced. -/
def both (h : Heap Fl) (pe pd : Nat) (be bd : Buf (Option Fl)) : Heap Fl := (h.put pe (some be)).put pd (some bd)

theorem both_enc {h : Heap Fl} {pe pd : Nat} (hne : pe ≠ pd) (be bd : Buf (Option Fl)) :
    (both h pe pd be bd).mem pe = some be := by
  rw [both, put_ne _ _ hne, put_same]

theorem both_dec (h : Heap Fl) (pe pd : Nat) (be bd : Buf (Option Fl)) : (both h pe pd be bd).mem pd = some bd := put_same _ _ _

theorem both_self {h : Heap Fl} {pe pd : Nat} {be bd : Buf (Option Fl)} (he : h.mem pe = some be) (hd : h.mem pd = some bd) :
    both h pe pd be bd = h := by
  rw [both, put_mem _ _ he, put_mem _ _ hd]

theorem put_comm (h : Heap Fl) {p q : Nat} (hpq : p ≠ q) (b c : Option (Buf (Option Fl))) :
    (h.put p b).put q c = (h.put q c).put p b := by
  simp only [Heap.put, Heap.mk.injEq, true_and, and_true]
  funext r
  split
  · next e => rw [if_neg (by rw [e]; exact fun x => hpq x.symm)]
  · rfl

theorem both_put_enc (h : Heap Fl) {pe pd : Nat} (hne : pe ≠ pd) (be bd b : Buf (Option Fl)) :
    (both h pe pd be bd).put pe (some b) = both h pe pd b bd := by
  rw [both, put_comm _ hne, put_put, put_comm _ (Ne.symm hne)]
  rfl

theorem both_put_dec (h : Heap Fl) (pe pd : Nat) (be bd b : Buf (Option Fl)) :
    (both h pe pd be bd).put pd (some b) = both h pe pd be b := by rw [both, put_put]; rfl

theorem store_enc {h : Heap Fl} {v : Vec} {pe pd : Nat} (hne : pe ≠ pd) (be bd : Buf (Option Fl)) (i : Nat) (x : Fl) :
    store (some pe) i (some x) ⟨both h pe pd be bd, v⟩ =
      if i < be.len then .ok () ⟨both h pe pd (cell be i x) bd, v⟩ else .ub := by
  simp only [store, both_enc hne]
  split
  · rw [both_put_enc h hne]; rfl
  · rfl

theorem store_dec {h : Heap Fl} {v : Vec} {pe pd : Nat} (be bd : Buf (Option Fl)) (i : Nat) (x : Fl) :
    store (some pd) i (some x) ⟨both h pe pd be bd, v⟩ =
      if i < bd.len then .ok () ⟨both h pe pd be (cell bd i x), v⟩ else .ub := by
  simp only [store, both_dec]
  split
  · rw [both_put_dec]; rfl
  · rfl

/-- One write of the table model and of the memory. -/
theorem Agree.putEnc {q : Nat} {f g : Fill} {be bd : Buf (Option Fl)} {x : Fl} (h : Agree q f be bd)
    (hp : f.putEnc q x = some g) : f.ei < be.len ∧ Agree q { g with ei := g.ei + 1 } (cell be f.ei x) bd := by
  simp only [Fill.putEnc] at hp
  split at hp
  · next hi =>
    cases hp
    refine ⟨by rw [h.lEnc]; exact hi, h.lEnc, h.lDec, ?_, h.cDec⟩
    intro j hj
    simp only [cell] at hj ⊢
    split
    · rfl
    · exact h.cEnc j (by omega)
  · cases hp

theorem Agree.putDec {q : Nat} {f g : Fill} {be bd : Buf (Option Fl)} {x : Fl} (h : Agree q f be bd)
    (hp : f.putDec q x = some g) : f.di < bd.len ∧ Agree q { g with di := g.di + 1 } be (cell bd f.di x) := by
  simp only [Fill.putDec] at hp
  split at hp
  · next hi =>
    cases hp
    refine ⟨by rw [h.lDec]; exact hi, h.lEnc, h.lDec, h.cEnc, ?_⟩
    intro j hj
    simp only [cell] at hj ⊢
    split
    · rfl
    · exact h.cDec j (by omega)
  · cases hp

theorem putEnc_none {q : Nat} {f : Fill} {x : Fl} (h : f.putEnc q x = none) : ¬f.ei < q - 1 := by
  simp only [Fill.putEnc] at h
  split at h
  · cases h
  · assumption

theorem putDec_none {q : Nat} {f : Fill} {x : Fl} (h : f.putDec q x = none) : ¬f.di < q := by
  simp only [Fill.putDec] at h
  split at h
  · cases h
  · assumption

theorem putEnc_pos {q : Nat} {f g : Fill} {x : Fl} (h : f.putEnc q x = some g) : g.ei = f.ei ∧ g.di = f.di := by
  simp only [Fill.putEnc] at h
  split at h
  · cases h; exact ⟨rfl, rfl⟩
  · cases h

theorem putDec_pos {q : Nat} {f g : Fill} {x : Fl} (h : f.putDec q x = some g) : g.ei = f.ei ∧ g.di = f.di := by
  simp only [Fill.putDec] at h
  split at h
  · cases h; exact ⟨rfl, rfl⟩
  · cases h

/-- The loop on memory follows the loop of the table model. -/
theorem fill_sim {q : Nat} (F : ℚ → Fl) {h : Heap Fl} {v : Vec} {pe pd : Nat} (hne : pe ≠ pd) :
    ∀ (k i : Nat) (f : Fill) (be bd : Buf (Option Fl)), Agree q f be bd →
      match fillLoop q F k i f with
      | none => fill q F (some pe) (some pd) k i f.ei f.di ⟨both h pe pd be bd, v⟩ = .ub
      | some g => ∃ be' bd', fill q F (some pe) (some pd) k i f.ei f.di ⟨both h pe pd be bd, v⟩ =
          .ok (g.ei, g.di) ⟨both h pe pd be' bd', v⟩ ∧ Agree q g be' bd' := by
  intro k
  induction k with
  | zero => intro i f be bd ha; exact ⟨be, bd, rfl, ha⟩
  | succ k ih =>
    intro i f be bd ha
    simp only [fillLoop, fill]
    cases i with
    | zero =>
      simp only [fillStep, ne_eq, not_true_eq_false, if_false, bind_apply]
      rw [store_dec]
      cases hd : f.putDec q (F (((0 : Nat) + 1 / 2) / ((q - 1 : Nat) : ℚ))) with
      | none => rw [if_neg (by rw [ha.lDec]; exact putDec_none hd)]; rfl
      | some g =>
        obtain ⟨h1, h2⟩ := ha.putDec hd
        obtain ⟨p1, p2⟩ := putDec_pos hd
        rw [if_pos h1]
        have := ih (0 + 1) { g with di := g.di + 1 } _ _ h2
        simp only [p1, p2] at this
        simp only [Option.map_some, p1, p2]
        exact this
    | succ i =>
      simp only [fillStep, ne_eq, Nat.succ_ne_zero, not_false_eq_true, if_true, bind_apply]
      rw [store_enc hne]
      cases he : f.putEnc q (F (((i + 1 : Nat) : ℚ) / ((q - 1 : Nat) : ℚ))) with
      | none => rw [if_neg (by rw [ha.lEnc]; exact putEnc_none he)]; rfl
      | some g =>
        obtain ⟨h1, h2⟩ := ha.putEnc he
        obtain ⟨p1, p2⟩ := putEnc_pos he
        rw [if_pos h1]
        simp only [Option.map_some]
        rw [store_dec]
        cases hd : Fill.putDec q (F ((((i + 1 : Nat) : ℚ) + 1 / 2) / ((q - 1 : Nat) : ℚ))) { g with ei := g.ei + 1 } with
        | none =>
          have := putDec_none hd
          simp only [p2] at this
          rw [if_neg (by rw [ha.lDec]; exact this)]; rfl
        | some g' =>
          obtain ⟨h3, h4⟩ := h2.putDec hd
          obtain ⟨p3, p4⟩ := putDec_pos hd
          simp only [p2] at h3 h4 p4
          rw [if_pos h3]
          have := ih (i + 1 + 1) { g' with di := g'.di + 1 } _ _ h4
          simp only [p3, p4, p1] at this
          simp only [Option.map_some, p3, p4, p1]
          exact this

/-- Where the iterators are after the loop. -/
theorem fillLoop_pos {q : Nat} {F : ℚ → Fl} : ∀ (k i : Nat) (f g : Fill), fillLoop q F k i f = some g →
    g.di = f.di + k ∧ g.ei = f.ei + (if i = 0 then k - 1 else k) := by
  intro k
  induction k with
  | zero => intro i f g h; cases h; exact ⟨rfl, by split <;> rfl⟩
  | succ k ih =>
    intro i f g h
    simp only [fillLoop] at h
    cases hs : fillStep q F i f with
    | none => rw [hs] at h; cases h
    | some f1 =>
      rw [hs] at h
      simp only at h
      obtain ⟨h1, h2⟩ := ih (i + 1) f1 g h
      rw [if_neg (Nat.succ_ne_zero i)] at h2
      have : f1.di = f.di + 1 ∧ f1.ei = f.ei + (if i = 0 then 0 else 1) := by
        simp only [fillStep] at hs
        by_cases hi : i = 0
        · simp only [hi, ne_eq, not_true_eq_false, if_false] at hs
          cases hd : f.putDec q (F (((0 : Nat) + 1 / 2) / ((q - 1 : Nat) : ℚ))) with
          | none => rw [hd] at hs; cases hs
          | some a =>
            rw [hd] at hs
            cases hs
            obtain ⟨p1, p2⟩ := putDec_pos hd
            simp [p1, p2, hi]
        · simp only [hi, ne_eq, not_false_eq_true, if_true] at hs
          cases he : f.putEnc q (F ((i : ℚ) / ((q - 1 : Nat) : ℚ))) with
          | none => rw [he] at hs; cases hs
          | some a =>
            rw [he] at hs
            simp only [Option.map_some] at hs
            cases hd : Fill.putDec q (F (((i : ℚ) + 1 / 2) / ((q - 1 : Nat) : ℚ))) { a with ei := a.ei + 1 } with
            | none => rw [hd] at hs; cases hs
            | some c =>
              rw [hd] at hs
              cases hs
              obtain ⟨p1, p2⟩ := putDec_pos hd
              obtain ⟨p3, p4⟩ := putEnc_pos he
              simp [p1, p2, p3, p4, hi]
      rw [h1, h2, this.1, this.2]
      constructor
      · omega
      · split <;> omega

/-- The constructor body on memory against the table model. -/
theorem body_sim {q : Nat} (F : ℚ → Fl) (e0 d0 : Nat → Fl) {h : Heap Fl} {v : Vec} {pe pd : Nat} (hne : pe ≠ pd) (hq : 1 ≤ q)
    {be bd : Buf (Option Fl)} (he : be.len = q - 1) (hd : bd.len = q) :
    match Stochastic.construct q F e0 d0 with
    | none => body q F (some pe) (some pd) ⟨both h pe pd be bd, v⟩ = .ub
    | some e => e.n = q - 1 ∧ e.cap = q ∧ ∃ be' bd', body q F (some pe) (some pd) ⟨both h pe pd be bd, v⟩ =
        .ok () ⟨both h pe pd be' bd', v⟩ ∧ be'.len = q - 1 ∧ bd'.len = q ∧
        (∀ i, i < e.n → be'.get i = some (e.bound i)) ∧ (∀ i, i < e.cap → bd'.get i = some (e.level i)) := by
  have hs := fill_sim (q := q) F (h := h) (v := v) hne (q - 1) 0 ⟨e0, d0, 0, 0⟩ be bd
    ⟨he, hd, fun j hj => absurd hj (Nat.not_lt_zero j), fun j hj => absurd hj (Nat.not_lt_zero j)⟩
  simp only [Stochastic.construct, body, bind_apply]
  cases hl : fillLoop q F (q - 1) 0 ⟨e0, d0, 0, 0⟩ with
  | none =>
    rw [hl] at hs
    simp only at hs ⊢
    rw [hs]
  | some f =>
    rw [hl] at hs
    obtain ⟨b1, b2, hf, ha⟩ := hs
    simp only at hf ⊢
    rw [hf]
    simp only
    obtain ⟨q1, q2⟩ := fillLoop_pos _ _ _ _ hl
    simp only [if_true, Nat.zero_add] at q1 q2
    rw [store_enc hne]
    cases hp : f.putEnc q (.fin fltMax) with
    | none => simp only; rw [if_neg (by rw [ha.lEnc]; exact putEnc_none hp)]
    | some f1 =>
      simp only
      obtain ⟨h1, h2⟩ := ha.putEnc hp
      obtain ⟨p1, p2⟩ := putEnc_pos hp
      rw [if_pos h1]
      simp only
      rw [store_dec]
      cases hr : f1.putDec q .nan with
      | none =>
        have := putDec_none hr
        rw [p2] at this
        simp only
        rw [if_neg (by rw [ha.lDec]; exact this)]
      | some f2 =>
        have h2' : Agree q f1 (cell b1 f.ei (.fin fltMax)) b2 := ⟨h2.lEnc, h2.lDec, fun j hj => h2.cEnc j (Nat.lt_succ_of_lt hj), h2.cDec⟩
        obtain ⟨h3, h4⟩ := h2'.putDec hr
        obtain ⟨p3, p4⟩ := putDec_pos hr
        rw [p2] at h3
        simp only
        rw [if_pos h3]
        refine ⟨trivial, trivial, _, _, rfl, h2.lEnc, ?_, ?_, ?_⟩
        · rw [← h4.lDec, p2]
        · intro i hi
          have := h2.cEnc i (by simp only at hi ⊢; rw [p1, q2]; omega)
          rw [this]
          simp only [Fill.putDec] at hr
          split at hr
          · cases hr; rfl
          · cases hr
        · intro i hi
          have := h4.cDec i (by simp only at hi ⊢; rw [p4, p2, q1]; omega)
          rw [p2] at this
          exact this

/-! ## Construction -/

/-- Blocks that will be allocated later are not in use. -/
def Fresh (P : Pool Fl) : Prop := ∀ p, P.heap.next ≤ p → P.heap.mem p = none

theorem new_construct {P : Pool Fl} {i : Nat} (n : Nat) (hi : P.vecs i = none) :
    (Pool.new (UVec.construct n) i P = .throw ⟨{ P.heap with next := P.heap.next + 1 }, P.vecs⟩) ∨
    (Pool.new (UVec.construct n) i P = .ok () ⟨{ (P.heap.put P.heap.next (some (blank n))) with next := P.heap.next + 1 },
      setAt P.vecs i (some ⟨some P.heap.next, n, n⟩)⟩) := by
  simp only [Pool.new, hi, UVec.construct, bind_apply]
  rcases allocate_cases n (⟨P.heap, Vec.empty⟩ : St Fl) with ⟨h, _⟩ | h
  · left; rw [h]
  · right; rw [h]; rfl

theorem on_reserve {P : Pool Fl} {i p n q : Nat} {b : Buf (Option Fl)} (hi : P.vecs i = some ⟨some p, n, n⟩) (hq : n < q)
    (hp : P.heap.mem p = some b) (hb : b.len = n) (hlt : p < P.heap.next) :
    (Pool.on (UVec.reserve q) i P = .throw ⟨{ P.heap with next := P.heap.next + 1 }, P.vecs⟩) ∨
    (Pool.on (UVec.reserve q) i P = .ok () ⟨{ ((P.heap.put P.heap.next (some (over (blank q) b 0 0 n))).put p none) with
      next := P.heap.next + 1 }, setAt P.vecs i (some ⟨some P.heap.next, n, q⟩)⟩) := by
  simp only [Pool.on, hi, UVec.reserve, bind_apply, self_apply]
  rw [if_pos hq]
  simp only [bind_apply]
  rcases allocate_cases q (⟨P.heap, ⟨some p, n, n⟩⟩ : St Fl) with ⟨h, _⟩ | h
  · left
    rw [h]
    simp only
    rw [← hi, setAt_self]
  · right
    rw [h]
    simp only
    have hne : p ≠ P.heap.next := by omega
    rw [copyRange_ne (b := blank q) (c := b) hne (by simp only [put_ne _ _ hne, hp]) (by simp only [put_same])
      (by omega) (by simp only [blank]; omega)]
    simp only [deallocate, Heap.put, setSelf_apply]
    rw [if_neg hne, if_neg hne, hp]
    simp only
    congr 3
    funext r
    split
    · rfl
    · split <;> rfl

theorem setAt_setAt {β : Type} (f : Nat → β) (i : Nat) (x y : β) : setAt (setAt f i x) i y = setAt f i y := by
  funext j; simp only [setAt]; split <;> rfl

theorem setAt_same {β : Type} (f : Nat → β) (i : Nat) (x : β) : setAt f i x i = x := by simp [setAt]

theorem setAt_ne {β : Type} (f : Nat → β) {i j : Nat} (x : β) (h : j ≠ i) : setAt f i x j = f j := by simp [setAt, h]

theorem destroy_some {P : Pool Fl} {i p n c : Nat} {b : Buf (Option Fl)} (hi : P.vecs i = some ⟨some p, n, c⟩)
    (hp : P.heap.mem p = some b) : Pool.destroy i P = .ok () ⟨P.heap.put p none, setAt P.vecs i none⟩ := by
  simp only [Pool.destroy, Pool.on, hi, UVec.destroy, bind_apply, self_apply, deallocate, hp, setAt_setAt]

theorem destroy_empty {P : Pool Fl} {i : Nat} (hi : P.vecs i = some Vec.empty) :
    Pool.destroy i P = .ok () ⟨P.heap, setAt P.vecs i none⟩ := by
  simp only [Pool.destroy, Pool.on, hi, UVec.destroy, bind_apply, self_apply, deallocate, Vec.empty, setAt_setAt]

/-- What does not belong to encoder `k` is the same in both pools. -/
structure Frame (k : Nat) (P Q : Pool Fl) : Prop where
  vecs : ∀ j, j ≠ 2 * k → j ≠ 2 * k + 1 → Q.vecs j = P.vecs j
  mem : ∀ p, p < P.heap.next → Q.heap.mem p = P.heap.mem p

/-- **C112**, construction: the constructors of the encoder do on memory what the table model says: undefined behaviour in the
same cases, the same table otherwise. When the memory is not available they throw, and release what they allocated. -/
theorem build_represents {q : Nat} (hq : 1 ≤ q) (F : ℚ → Fl) (e0 d0 : Nat → Fl) (k : Nat) (P : Pool Fl) (hF : Fresh P)
    (h0 : P.vecs (2 * k) = none) (h1 : P.vecs (2 * k + 1) = none) :
    (∃ Q, build q F k P = .throw Q ∧ Q.vecs = P.vecs ∧ Q.heap.mem = P.heap.mem) ∨
    (match Stochastic.construct q F e0 d0 with
      | none => build q F k P = .ub
      | some e => ∃ Q, build q F k P = .ok () Q ∧ Represents Q k e ∧ Frame k P Q ∧ Fresh Q ∧
          ∃ pe pd be bd, Stored Q k e pe pd be bd) := by
  have hk : 2 * k ≠ 2 * k + 1 := by omega
  simp only [build]
  rcases new_construct (q - 1) h0 with e1 | e1
  · left
    rw [e1]
    exact ⟨_, rfl, rfl, rfl⟩
  · rw [e1]
    simp only
    set P1 : Pool Fl := ⟨{ (P.heap.put P.heap.next (some (blank (q - 1)))) with next := P.heap.next + 1 },
      setAt P.vecs (2 * k) (some ⟨some P.heap.next, q - 1, q - 1⟩)⟩ with hP1
    have v10 : P1.vecs (2 * k) = some ⟨some P.heap.next, q - 1, q - 1⟩ := setAt_same _ _ _
    have v11 : P1.vecs (2 * k + 1) = none := by rw [hP1]; simp only; rw [setAt_ne _ _ hk.symm]; exact h1
    have m1 : P1.heap.mem P.heap.next = some (blank (q - 1)) := by rw [hP1]; exact put_same _ _ _
    have n1 : P1.heap.next = P.heap.next + 1 := rfl
    have o1 : ∀ p, p ≠ P.heap.next → P1.heap.mem p = P.heap.mem p := fun p hp => put_ne _ _ hp
    have w1 : setAt P1.vecs (2 * k) none = P.vecs := by
      rw [hP1]; simp only; rw [setAt_setAt, ← h0, setAt_self]
    rcases new_construct (q - 1) v11 with e2 | e2
    · left
      rw [e2]
      simp only [unwind]
      rw [destroy_some (p := P.heap.next) (n := q - 1) (c := q - 1) (b := blank (q - 1)) (by exact v10) (by exact m1)]
      refine ⟨_, rfl, w1, ?_⟩
      funext p
      by_cases hp : p = P.heap.next
      · rw [hp, put_same, hF _ (Nat.le_refl _)]
      · rw [put_ne _ _ hp]
        exact o1 p hp
    · rw [e2]
      simp only
      set P2 : Pool Fl := ⟨{ (P1.heap.put P1.heap.next (some (blank (q - 1)))) with next := P1.heap.next + 1 },
        setAt P1.vecs (2 * k + 1) (some ⟨some P1.heap.next, q - 1, q - 1⟩)⟩ with hP2
      have v20 : P2.vecs (2 * k) = some ⟨some P.heap.next, q - 1, q - 1⟩ := by
        rw [hP2]; simp only; rw [setAt_ne _ _ hk]; exact v10
      have v21 : P2.vecs (2 * k + 1) = some ⟨some P1.heap.next, q - 1, q - 1⟩ := setAt_same _ _ _
      have m20 : P2.heap.mem P.heap.next = some (blank (q - 1)) := by
        rw [hP2]; show (P1.heap.put P1.heap.next _).mem _ = _; rw [put_ne _ _ (by rw [n1]; omega)]; exact m1
      have m21 : P2.heap.mem P1.heap.next = some (blank (q - 1)) := by rw [hP2]; exact put_same _ _ _
      have n2 : P2.heap.next = P.heap.next + 2 := rfl
      have o2 : ∀ p, p ≠ P.heap.next → p ≠ P.heap.next + 1 → P2.heap.mem p = P.heap.mem p := by
        intro p hp hp'
        rw [hP2]
        show (P1.heap.put P1.heap.next _).mem _ = _
        rw [put_ne _ _ (by rw [n1]; exact hp')]
        exact o1 p hp
      rcases on_reserve (q := q) v21 (by omega) m21 rfl (by rw [n1, n2]; omega) with e3 | e3
      · left
        rw [e3]
        simp only [unwind]
        rw [destroy_some (p := P1.heap.next) (n := q - 1) (c := q - 1) (b := blank (q - 1)) (by exact v21) (by exact m21)]
        simp only
        rw [destroy_some (p := P.heap.next) (n := q - 1) (c := q - 1) (b := blank (q - 1))
          (by simp only; rw [setAt_ne _ _ hk]; exact v20)
          (by simp only; rw [put_ne _ _ (by rw [n1]; omega)]; exact m20)]
        refine ⟨_, rfl, ?_, ?_⟩
        · simp only
          rw [hP2]
          simp only
          rw [setAt_setAt, show (none : Option Vec) = P1.vecs (2 * k + 1) from v11.symm, setAt_self, v11, w1]
        · funext p
          by_cases hp : p = P.heap.next
          · rw [hp, put_same, hF _ (Nat.le_refl _)]
          · rw [put_ne _ _ hp]
            simp only
            by_cases hp' : p = P1.heap.next
            · rw [hp', put_same, hF _ (by rw [n1]; omega)]
            · rw [put_ne _ _ hp']
              exact o2 p hp (by rw [← n1]; exact hp')
      · right
        rw [e3]
        simp only
        rw [setAt_ne _ _ hk, v20, setAt_same]
        simp only
        set H : Heap Fl := { ((P2.heap.put P2.heap.next (some (over (blank q) (blank (q - 1)) 0 0 (q - 1)))).put P1.heap.next none) with
          next := P2.heap.next + 1 } with hH
        have mE : H.mem P.heap.next = some (blank (q - 1)) := by
          rw [hH]
          show ((P2.heap.put _ _).put _ _).mem _ = _
          rw [put_ne _ _ (by rw [n1]; omega), put_ne _ _ (by rw [n2]; omega)]
          exact m20
        have mD : H.mem P2.heap.next = some (over (blank q) (blank (q - 1)) 0 0 (q - 1)) := by
          rw [hH]
          show ((P2.heap.put _ _).put _ _).mem _ = _
          rw [put_ne _ _ (by rw [n1, n2]; omega), put_same]
        have oH : ∀ p, p ≠ P.heap.next → p ≠ P2.heap.next → H.mem p = P.heap.mem p := by
          intro p hp hp'
          rw [hH]
          show ((P2.heap.put _ _).put _ _).mem _ = _
          by_cases hp2 : p = P1.heap.next
          · rw [hp2, put_same, hF _ (by rw [n1]; omega)]
          · rw [put_ne _ _ hp2, put_ne _ _ hp']
            exact o2 p hp (by rw [← n1]; exact hp2)
        have nH : H.next = P.heap.next + 3 := rfl
        have hne : P.heap.next ≠ P2.heap.next := by rw [n2]; omega
        have hs := body_sim F e0 d0 (h := H) (v := Vec.empty) hne hq (be := blank (q - 1))
          (bd := over (blank q) (blank (q - 1)) 0 0 (q - 1)) rfl rfl
        rw [both_self mE mD] at hs
        cases hc : Stochastic.construct q F e0 d0 with
        | none =>
          rw [hc] at hs
          simp only at hs ⊢
          simp only [onHeap, hs]
        | some e =>
          rw [hc] at hs
          obtain ⟨en, ec, be', bd', hb, l1, l2, c1, c2⟩ := hs
          simp only [onHeap, hb]
          have st : Stored ⟨both H P.heap.next P2.heap.next be' bd',
              setAt P2.vecs (2 * k + 1) (some ⟨some P2.heap.next, q - 1, q⟩)⟩ k e P.heap.next P2.heap.next be' bd' :=
            ⟨by simp only; rw [setAt_ne _ _ hk, v20, en], by simp only; rw [setAt_same, en, ec], hne, both_enc hne _ _,
              both_dec _ _ _ _ _, by rw [l1, en], by rw [l2, ec], c1, c2⟩
          refine ⟨_, rfl, st.represents, ⟨?_, ?_⟩, ?_, _, _, _, _, st⟩
          · intro j j0 j1
            simp only
            rw [setAt_ne _ _ j1, hP2]
            simp only
            rw [setAt_ne _ _ j1, hP1]
            simp only
            rw [setAt_ne _ _ j0]
          · intro p hp
            simp only [both]
            rw [put_ne _ _ (by rw [n2]; omega), put_ne _ _ (by omega)]
            exact oH p (by omega) (by rw [n2]; omega)
          · intro p hp
            simp only [both] at hp ⊢
            have hp' : P.heap.next + 3 ≤ p := hp
            rw [put_ne _ _ (by rw [n2]; omega), put_ne _ _ (by omega), oH p (by omega) (by rw [n2]; omega)]
            exact hF p (by omega)

/-! ## Moving -/

theorem moveOf_eq {P : Pool Fl} {i j : Nat} {w : Vec} (hi : P.vecs i = none) (hj : P.vecs j = some w) :
    Pool.moveOf i j P = .ok () ⟨P.heap, setAt (setAt P.vecs i (some w)) j (some Vec.empty)⟩ := by
  simp only [Pool.moveOf, hi, hj]

theorem move_step {P : Pool Fl} {k k' : Nat} {e : Encoder} {pe pd : Nat} {be bd : Buf (Option Fl)} (hne : k' ≠ k)
    (h : Stored P k e pe pd be bd) (h0 : P.vecs (2 * k') = none) (h1 : P.vecs (2 * k' + 1) = none) :
    ∃ Q R, moveEncoder k' k P = .ok () Q ∧ destroyEncoder k Q = .ok () R ∧ Stored R k' e pe pd be bd ∧ R.heap = P.heap ∧
      R.vecs (2 * k) = none ∧ R.vecs (2 * k + 1) = none ∧
      ∀ j, j ≠ 2 * k → j ≠ 2 * k + 1 → j ≠ 2 * k' → j ≠ 2 * k' + 1 → R.vecs j = P.vecs j := by
  have a1 : 2 * k + 1 ≠ 2 * k := by omega
  have a2 : 2 * k + 1 ≠ 2 * k' := by omega
  have a3 : 2 * k' + 1 ≠ 2 * k := by omega
  have a4 : 2 * k' + 1 ≠ 2 * k' := by omega
  have a5 : 2 * k ≠ 2 * k' := by omega
  have a6 : 2 * k' + 1 ≠ 2 * k + 1 := by omega
  have e1 := moveOf_eq (P := P) h0 h.vEnc
  have e2 := moveOf_eq (P := ⟨P.heap, setAt (setAt P.vecs (2 * k') (some ⟨some pe, e.n, e.n⟩)) (2 * k) (some Vec.empty)⟩)
    (i := 2 * k' + 1) (j := 2 * k + 1) (w := ⟨some pd, e.n, e.cap⟩)
    (by simp only [setAt, a3, a4, if_false]; exact h1) (by simp only [setAt, a1, a2, if_false]; exact h.vDec)
  have e3 := destroy_empty (i := 2 * k + 1) (P := ⟨P.heap, setAt (setAt (setAt (setAt P.vecs (2 * k') (some ⟨some pe, e.n, e.n⟩)) (2 * k)
    (some Vec.empty)) (2 * k' + 1) (some ⟨some pd, e.n, e.cap⟩)) (2 * k + 1) (some Vec.empty)⟩) (setAt_same _ _ _)
  have e4 := destroy_empty (i := 2 * k) (P := ⟨P.heap, setAt (setAt (setAt (setAt (setAt P.vecs (2 * k') (some ⟨some pe, e.n, e.n⟩)) (2 * k)
    (some Vec.empty)) (2 * k' + 1) (some ⟨some pd, e.n, e.cap⟩)) (2 * k + 1) (some Vec.empty)) (2 * k + 1) none⟩)
    (by simp only [setAt, a1.symm, a3.symm, if_false, if_true])
  refine ⟨_, _, Eq.trans (by rw [moveEncoder, e1]) e2, Eq.trans (by rw [destroyEncoder, e3]) e4,
    ⟨?_, ?_, h.ne, h.mEnc, h.mDec, h.lEnc, h.lDec, h.cEnc, h.cDec⟩, rfl, setAt_same _ _ _, ?_, ?_⟩
  · simp only [setAt, a5.symm, a2.symm, a4.symm, if_false, if_true]
  · simp only [setAt, a3, a6, if_false, if_true]
  · simp only [setAt, a1, if_false, if_true]
  · intro j j1 j2 j3 j4
    simp only [setAt, j1, j2, j3, j4, if_false]

theorem deliver_step : ∀ (ks : List Nat) (k : Nat) (P : Pool Fl) {e : Encoder} {pe pd : Nat} {be bd : Buf (Option Fl)},
    (k :: ks).Nodup → Stored P k e pe pd be bd → (∀ j ∈ ks, P.vecs (2 * j) = none ∧ P.vecs (2 * j + 1) = none) →
    ∃ R, deliver k ks P = .ok () R ∧ Stored R ((k :: ks).getLast (List.cons_ne_nil _ _)) e pe pd be bd ∧ R.heap = P.heap ∧
      ∀ j, j ∉ k :: ks → R.vecs (2 * j) = P.vecs (2 * j) ∧ R.vecs (2 * j + 1) = P.vecs (2 * j + 1) := by
  intro ks
  induction ks with
  | nil => intro k P e pe pd be bd _ h _; exact ⟨P, rfl, h, rfl, fun _ _ => ⟨rfl, rfl⟩⟩
  | cons k' ks ih =>
    intro k P e pe pd be bd hn h hf
    rw [List.nodup_cons] at hn
    have hkk : k' ≠ k := by rintro rfl; exact hn.1 (List.mem_cons_self ..)
    obtain ⟨Q, R, e1, e2, hs, hh, _, _, hv⟩ := move_step hkk h (hf k' (List.mem_cons_self ..)).1 (hf k' (List.mem_cons_self ..)).2
    have hn' := List.nodup_cons.1 hn.2
    obtain ⟨S, e3, hs', hh', hv'⟩ := ih k' R hn.2 hs (by
      intro j hj
      have j1 : j ≠ k := by rintro rfl; exact hn.1 (List.mem_cons_of_mem _ hj)
      have j2 : j ≠ k' := by rintro rfl; exact hn'.1 hj
      rw [hv _ (by omega) (by omega) (by omega) (by omega), hv _ (by omega) (by omega) (by omega) (by omega)]
      exact hf j (List.mem_cons_of_mem _ hj))
    refine ⟨S, by simp only [deliver, e1, e2, e3], by rw [List.getLast_cons (List.cons_ne_nil _ _)]; exact hs', by rw [hh', hh], ?_⟩
    intro j hj
    simp only [List.mem_cons, not_or] at hj
    obtain ⟨v1, v2⟩ := hv' j (by simp only [List.mem_cons, not_or]; exact hj.2)
    rw [v1, v2, hv _ (by omega) (by omega) (by omega) (by omega), hv _ (by omega) (by omega) (by omega) (by omega)]
    exact ⟨rfl, rfl⟩

/-! ## Copying -/

theorem new_copy {P : Pool Fl} {i p n c : Nat} {b : Buf (Option Fl)} (hi : P.vecs i = none) (hp : P.heap.mem p = some b)
    (hb : n ≤ b.len) (hF : Fresh P) :
    (Pool.new (copyConstruct ⟨some p, n, c⟩) i P = .throw ⟨{ P.heap with next := P.heap.next + 1 }, P.vecs⟩) ∨
    (Pool.new (copyConstruct ⟨some p, n, c⟩) i P = .ok () ⟨{ (P.heap.put P.heap.next (some (over (blank n) b 0 0 n))) with
      next := P.heap.next + 1 }, setAt P.vecs i (some ⟨some P.heap.next, n, n⟩)⟩) := by
  have hne : p ≠ P.heap.next := by
    rintro rfl
    rw [hF _ (Nat.le_refl _)] at hp
    cases hp
  simp only [Pool.new, hi, copyConstruct, bind_apply]
  rcases allocate_cases n (⟨P.heap, Vec.empty⟩ : St Fl) with ⟨h, _⟩ | h
  · left; rw [h]
  · right
    rw [h]
    simp only [setSelf_apply]
    rw [copyRange_ne (b := blank n) (c := b) hne (by simp only [put_ne _ _ hne, hp]) (by simp only [put_same])
      (by omega) (by simp only [blank]; omega)]
    simp only [Heap.put]
    congr 3
    funext r
    split <;> rfl

/-- A copy has the levels of its source, but no memory after them. -/
theorem copy_step {P : Pool Fl} {k k' : Nat} {e : Encoder} {pe pd : Nat} {be bd : Buf (Option Fl)} (hF : Fresh P)
    (h : Stored P k e pe pd be bd) (hcap : e.n ≤ e.cap) (h0 : P.vecs (2 * k') = none) (h1 : P.vecs (2 * k' + 1) = none) :
    (∃ Q, copyEncoder k' k P = .throw Q ∧ Q.vecs = P.vecs ∧ Q.heap.mem = P.heap.mem) ∨
    ∃ Q, copyEncoder k' k P = .ok () Q ∧ Stored Q k e pe pd be bd ∧
      Represents Q k' ⟨e.n, e.bound, e.level, e.n⟩ := by
  have hkk : k' ≠ k := by rintro rfl; rw [h.vEnc] at h0; cases h0
  have a1 : 2 * k + 1 ≠ 2 * k' := by omega
  have a2 : 2 * k' + 1 ≠ 2 * k' := by omega
  have hpe : pe < P.heap.next := by
    by_contra hc
    have := hF pe (by omega)
    rw [h.mEnc] at this
    cases this
  have hpd : pd < P.heap.next := by
    by_contra hc
    have := hF pd (by omega)
    rw [h.mDec] at this
    cases this
  simp only [copyEncoder, Pool.copyOf, h.vEnc]
  rcases new_copy (c := e.n) h0 h.mEnc (by rw [h.lEnc]) hF with e1 | e1
  · left; rw [e1]; exact ⟨_, rfl, rfl, rfl⟩
  · rw [e1]
    simp only
    set P1 : Pool Fl := ⟨{ (P.heap.put P.heap.next (some (over (blank e.n) be 0 0 e.n))) with next := P.heap.next + 1 },
      setAt P.vecs (2 * k') (some ⟨some P.heap.next, e.n, e.n⟩)⟩ with hP1
    have v1 : ∀ j, j ≠ 2 * k' → P1.vecs j = P.vecs j := fun j hj => setAt_ne _ _ hj
    have o1 : ∀ p, p ≠ P.heap.next → P1.heap.mem p = P.heap.mem p := fun p hp => put_ne _ _ hp
    have m1 : P1.heap.mem P.heap.next = some (over (blank e.n) be 0 0 e.n) := put_same _ _ _
    have n1 : P1.heap.next = P.heap.next + 1 := rfl
    have hF1 : Fresh P1 := by
      intro p hp
      rw [n1] at hp
      rw [o1 p (by omega)]
      exact hF p (by omega)
    rw [setAt_ne _ _ a1, h.vDec]
    simp only
    rcases new_copy (P := P1) (i := 2 * k' + 1) (p := pd) (c := e.cap) (b := bd) (n := e.n) (by rw [v1 _ a2]; exact h1) (by rw [o1 _ (by omega)]; exact h.mDec)
      (by rw [h.lDec]; exact hcap) hF1 with e2 | e2
    · left
      rw [e2]
      simp only [unwind]
      rw [destroy_some (p := P.heap.next) (n := e.n) (c := e.n) (b := over (blank e.n) be 0 0 e.n)
        (by exact setAt_same _ _ _) (by exact m1)]
      refine ⟨_, rfl, ?_, ?_⟩
      · simp only
        rw [hP1]
        simp only
        rw [setAt_setAt, ← h0, setAt_self]
      · funext p
        by_cases hp : p = P.heap.next
        · rw [hp, put_same, hF _ (Nat.le_refl _)]
        · rw [put_ne _ _ hp]; exact o1 p hp
    · right
      rw [e2]
      have hx : P.heap.next ≠ P1.heap.next := by rw [n1]; omega
      have ho : ∀ p, p < P.heap.next →
          (P1.heap.put P1.heap.next (some (over (blank e.n) bd 0 0 e.n))).mem p = P.heap.mem p := by
        intro p hp
        rw [put_ne _ _ (by rw [n1]; omega), o1 p (by omega)]
      refine ⟨_, rfl, ⟨?_, ?_, h.ne, ?_, ?_, h.lEnc, h.lDec, h.cEnc, h.cDec⟩, ?_⟩
      · simp only
        rw [setAt_ne _ _ (by omega), v1 _ (by omega)]
        exact h.vEnc
      · simp only
        rw [setAt_ne _ _ (by omega), v1 _ (by omega)]
        exact h.vDec
      · exact (ho pe hpe).trans h.mEnc
      · exact (ho pd hpd).trans h.mDec
      · refine Stored.represents (pe := P.heap.next) (pd := P1.heap.next) (be := over (blank e.n) be 0 0 e.n)
          (bd := over (blank e.n) bd 0 0 e.n) ⟨?_, setAt_same _ _ _, hx, ?_, put_same _ _ _, rfl, rfl, ?_, ?_⟩
        · simp only
          rw [setAt_ne _ _ a2.symm]
          exact setAt_same _ _ _
        · show (P1.heap.put P1.heap.next _).mem _ = _
          rw [put_ne _ _ hx]
          exact m1
        · intro i hi
          have hi : i < e.n := hi
          simp only [over, Nat.zero_le, true_and, Nat.zero_add, hi, if_true, Nat.sub_zero]
          exact h.cEnc i hi
        · intro i hi
          have hi : i < e.n := hi
          simp only [over, Nat.zero_le, true_and, Nat.zero_add, hi, if_true, Nat.sub_zero]
          exact h.cDec i (Nat.lt_of_lt_of_le hi hcap)

/-- **C112**: an encoder that is constructed, and moved through any number of temporaries, behaves as the table model; in
particular the NaN for non-finite values, which is stored after the end of the dictionary, is found. -/
theorem encoder_delivered {q : Nat} (hq : 2 ≤ q) (F : ℚ → Fl) (e0 d0 : Nat → Fl) {e : Encoder}
    (he : Stochastic.construct q F e0 d0 = some e) (k : Nat) (ks : List Nat) (hn : (k :: ks).Nodup) (P : Pool Fl) (hF : Fresh P)
    (hfree : ∀ j ∈ k :: ks, P.vecs (2 * j) = none ∧ P.vecs (2 * j + 1) = none) :
    (∃ Q, build q F k P = .throw Q ∧ Q.vecs = P.vecs ∧ Q.heap.mem = P.heap.mem) ∨
    ∃ Q R, build q F k P = .ok () Q ∧ deliver k ks Q = .ok () R ∧
      Represents R ((k :: ks).getLast (List.cons_ne_nil _ _)) e ∧
      decodeMem ((k :: ks).getLast (List.cons_ne_nil _ _)) (q - 1) R = .ok (some .nan) R ∧
      (∀ j, j ∉ k :: ks → R.vecs (2 * j) = P.vecs (2 * j) ∧ R.vecs (2 * j + 1) = P.vecs (2 * j + 1)) ∧
      (∀ p, p < P.heap.next → R.heap.mem p = P.heap.mem p) := by
  rcases build_represents (q := q) (by omega) F e0 d0 k P hF (hfree k (List.mem_cons_self ..)).1 (hfree k (List.mem_cons_self ..)).2 with h | h
  · exact Or.inl h
  · right
    rw [he] at h
    obtain ⟨Q, e1, _, hfr, _, pe, pd, be, bd, hst⟩ := h
    have hk := List.nodup_cons.1 hn
    obtain ⟨R, e2, hst', hh, hv⟩ := deliver_step ks k Q hn hst (by
      intro j hj
      have : j ≠ k := by rintro rfl; exact hk.1 hj
      rw [hfr.vecs _ (by omega) (by omega), hfr.vecs _ (by omega) (by omega)]
      exact hfree j (List.mem_cons_of_mem _ hj))
    refine ⟨Q, R, e1, e2, hst'.represents, ?_, ?_, ?_⟩
    · rw [hst'.represents.decode]
      obtain ⟨e', he', _, hc, _, _, _, hnan⟩ := construct_spec q hq F e0 d0
      rw [he] at he'
      cases he'
      simp only [Encoder.decode, hc, show q - 1 < q by omega, if_true, hnan]
    · intro j hj
      obtain ⟨v1, v2⟩ := hv j hj
      have : j ≠ k := by rintro rfl; exact hj (List.mem_cons_self ..)
      rw [v1, v2, hfr.vecs _ (by omega) (by omega), hfr.vecs _ (by omega) (by omega)]
      exact ⟨rfl, rfl⟩
    · intro p hp
      rw [hh]
      exact hfr.mem p hp

/-- **C112**, the limit: a *copy* of the encoder has the same levels, but decoding a non-finite value with it reads outside its
memory. The original is not affected. -/
theorem copied_encoder_undefined {q : Nat} (hq : 2 ≤ q) (F : ℚ → Fl) (e0 d0 : Nat → Fl) {e : Encoder}
    (he : Stochastic.construct q F e0 d0 = some e) {k k' : Nat} (P : Pool Fl) (hF : Fresh P)
    (hfree : ∀ j, j = k ∨ j = k' → P.vecs (2 * j) = none ∧ P.vecs (2 * j + 1) = none) (hne : k' ≠ k) {Q : Pool Fl}
    (hb : build q F k P = .ok () Q) :
    (∃ R, copyEncoder k' k Q = .throw R ∧ R.vecs = Q.vecs ∧ R.heap.mem = Q.heap.mem) ∨
    ∃ R, copyEncoder k' k Q = .ok () R ∧ Represents R k e ∧
      (∀ s, s < q - 1 → decodeMem k' s R = .ok (some (e.level s)) R) ∧ decodeMem k' (q - 1) R = .ub := by
  rcases build_represents (q := q) (by omega) F e0 d0 k P hF (hfree k (Or.inl rfl)).1 (hfree k (Or.inl rfl)).2 with ⟨_, h, _⟩ | h
  · rw [hb] at h; cases h
  · rw [he] at h
    obtain ⟨Q', e1, _, hfr, hF', pe, pd, be, bd, hst⟩ := h
    rw [hb] at e1
    cases e1
    obtain ⟨e', he', hn, hc, _⟩ := construct_spec q hq F e0 d0
    rw [he] at he'
    cases he'
    rcases copy_step (k' := k') hF' hst (by omega) (by rw [hfr.vecs _ (by omega) (by omega)]; exact (hfree k' (Or.inr rfl)).1)
      (by rw [hfr.vecs _ (by omega) (by omega)]; exact (hfree k' (Or.inr rfl)).2) with h | ⟨R, e2, hst', hr⟩
    · exact Or.inl h
    · refine Or.inr ⟨R, e2, hst'.represents, ?_, ?_⟩
      · intro s hs
        rw [hr.decode]
        simp only [Encoder.decode, hn, hs, if_true]
      · rw [hr.decode]
        simp only [Encoder.decode, hn, Nat.lt_irrefl, if_false]

/-- An empty memory in which every allocation succeeds. -/
def emptyPool : Pool Fl := ⟨⟨0, fun _ => none, fun _ _ => false⟩, fun _ => none⟩

/-- The hypotheses are met: an 8 bit encoder, moved twice. -/
example : Fresh emptyPool ∧ [0, 1, 2].Nodup ∧ ∃ e, Stochastic.construct 256 (uniformF 1) (fun _ => .nan) (fun _ => .nan) = some e :=
  ⟨fun _ _ => rfl, by decide, (construct_spec 256 (by decide) _ _ _).imp fun _ h => h.1⟩

/-- With two bits: the moved encoder decodes all symbols, the copy does not decode the last. -/
example : (match build 4 (uniformF 1) 0 emptyPool with
    | .ok _ Q => (match deliver 0 [1, 2] Q with
      | .ok _ R => (match decodeMem 2 3 R with
        | .ok x _ => decide (x = some .nan)
        | _ => false)
      | _ => false) && (match copyEncoder 1 0 Q with
      | .ok _ R => (match decodeMem 1 2 R, decodeMem 1 3 R with
        | .ok x _, .ub => decide (x = some (.fin (2 / 3)))
        | _, _ => false)
      | _ => false)
    | _ => false) = true := by decide +kernel

end Dysco.DictMem
