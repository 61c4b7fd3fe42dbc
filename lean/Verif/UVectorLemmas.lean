import Verif.UVectorModel
import Mathlib.Data.List.Basic

/-!
# Lemmas about the `UVector` model
-/

namespace Dysco.UVec

variable {α A B : Type}

@[simp] theorem bind_apply (m : M α A) (f : A → M α B) (s : St α) :
    (m >>= f) s = match m s with
      | .ok a s' => f a s'
      | .throw s' => .throw s'
      | .ub => .ub := rfl

@[simp] theorem pure_apply (a : A) (s : St α) : (pure a : M α A) s = .ok a s := rfl
@[simp] theorem ret_apply (a : A) (s : St α) : (M.ret a : M α A) s = .ok a s := rfl
@[simp] theorem self_apply (s : St α) : self s = .ok s.v s := rfl
@[simp] theorem setSelf_apply (v : Vec) (s : St α) : setSelf v s = .ok () ⟨s.heap, v⟩ := rfl

theorem ite_apply' (c : Prop) [Decidable c] (m m' : M α A) (s : St α) :
    (if c then m else m') s = if c then m s else m' s := by split <;> rfl

/-- Cells `j ≤ x < j + n` replaced by the cells of `c` from `i` on. -/
def over (b c : Buf (Option α)) (i j n : Nat) : Buf (Option α) :=
  ⟨b.len, fun x => if j ≤ x ∧ x < j + n then c.get (i + (x - j)) else b.get x⟩

theorem put_same (h : Heap α) (p : Nat) (b : Option (Buf (Option α))) : (h.put p b).mem p = b := by
  simp [Heap.put]

theorem put_ne (h : Heap α) {p q : Nat} (b : Option (Buf (Option α))) (hq : q ≠ p) :
    (h.put p b).mem q = h.mem q := by
  simp [Heap.put, hq]

theorem put_put (h : Heap α) (p : Nat) (b c : Option (Buf (Option α))) :
    (h.put p b).put p c = h.put p c := by
  simp only [Heap.put, Heap.mk.injEq, true_and, and_true]
  funext q; split <;> rfl

theorem put_mem (h : Heap α) (p : Nat) {b : Option (Buf (Option α))} (hb : h.mem p = b) : h.put p b = h := by
  cases h
  simp only [Heap.put, Heap.mk.injEq, true_and, and_true]
  funext q; simp only at hb; split
  · next e => rw [e, hb]
  · rfl

theorem load_some {s : St α} {p i : Nat} {b : Buf (Option α)} (hb : s.heap.mem p = some b) (hi : i < b.len) :
    load (some p) i s = .ok (b.get i) s := by
  simp [load, hb, hi]

theorem store_some {s : St α} {p i : Nat} {b : Buf (Option α)} (hb : s.heap.mem p = some b) (hi : i < b.len)
    (x : Option α) : store (some p) i x s =
      .ok () ⟨s.heap.put p (some ⟨b.len, fun j => if j = i then x else b.get j⟩), s.v⟩ := by
  simp [store, hb, hi]

/-- Copying between different blocks. -/
theorem copyRange_ne {s : St α} {p q i j n : Nat} {b c : Buf (Option α)} (hpq : p ≠ q)
    (hc : s.heap.mem p = some c) (hb : s.heap.mem q = some b) (hi : i + n ≤ c.len) (hj : j + n ≤ b.len) :
    copyRange (some p) i (some q) j n s = .ok () ⟨s.heap.put q (some (over b c i j n)), s.v⟩ := by
  unfold copyRange
  suffices H : ∀ m, m ≤ n → loop m (fun k => do
      let x ← load (some p) (i + k)
      store (some q) (j + k) x) s = .ok () ⟨s.heap.put q (some (over b c i j m)), s.v⟩ from H n (Nat.le_refl _)
  intro m
  induction m with
  | zero =>
    intro _
    have : over b c i j 0 = b := by
      cases b; simp only [over, Buf.mk.injEq, true_and]; funext x; rw [if_neg (by omega)]
    rw [this, put_mem _ _ hb]; rfl
  | succ m ih =>
    intro hm
    simp only [loop, bind_apply]
    rw [ih (by omega)]
    simp only
    rw [load_some (b := c) (by simp only [put_ne _ _ hpq, hc]) (by omega)]
    simp only
    rw [store_some (b := over b c i j m) (by simp only [put_same]) (by simp only [over]; omega)]
    simp only [put_put]
    congr 4
    simp only [over, Buf.mk.injEq, true_and]
    funext x
    by_cases hx : x = j + m
    · rw [if_pos hx, if_pos (by omega)]; congr 1; omega
    · rw [if_neg hx]
      by_cases h2 : j ≤ x ∧ x < j + m
      · rw [if_pos h2, if_pos (by omega)]
      · rw [if_neg h2, if_neg (by omega)]

/-- Copying within a block towards the front. -/
theorem copyRange_down {s : St α} {p i j n : Nat} {b : Buf (Option α)} (hji : j ≤ i)
    (hb : s.heap.mem p = some b) (hi : i + n ≤ b.len) :
    copyRange (some p) i (some p) j n s = .ok () ⟨s.heap.put p (some (over b b i j n)), s.v⟩ := by
  unfold copyRange
  suffices H : ∀ m, m ≤ n → loop m (fun k => do
      let x ← load (some p) (i + k)
      store (some p) (j + k) x) s = .ok () ⟨s.heap.put p (some (over b b i j m)), s.v⟩ from H n (Nat.le_refl _)
  intro m
  induction m with
  | zero =>
    intro _
    have : over b b i j 0 = b := by
      cases b; simp only [over, Buf.mk.injEq, true_and]; funext x; rw [if_neg (by omega)]
    rw [this, put_mem _ _ hb]; rfl
  | succ m ih =>
    intro hm
    simp only [loop, bind_apply]
    rw [ih (by omega)]
    simp only
    rw [load_some (b := over b b i j m) (by simp only [put_same]) (by simp only [over]; omega)]
    simp only
    rw [store_some (b := over b b i j m) (by simp only [put_same]) (by simp only [over]; omega)]
    simp only [put_put]
    congr 4
    simp only [over, Buf.mk.injEq, true_and]
    funext x
    by_cases hx : x = j + m
    · rw [if_pos hx, if_neg (show ¬(j ≤ i + m ∧ i + m < j + m) by omega), if_pos (by omega)]
      congr 1; omega
    · rw [if_neg hx]
      by_cases h2 : j ≤ x ∧ x < j + m
      · rw [if_pos h2, if_pos (by omega)]
      · rw [if_neg h2, if_neg (by omega)]

/-- Moving within a block towards the back. -/
theorem moveBackward_up {s : St α} {p i j n : Nat} {b : Buf (Option α)} (hij : i ≤ j)
    (hb : s.heap.mem p = some b) (hj : j + n ≤ b.len) :
    moveBackward (some p) i j n s = .ok () ⟨s.heap.put p (some (over b b i j n)), s.v⟩ := by
  unfold moveBackward
  suffices H : ∀ m, m ≤ n → loop m (fun k => do
      let x ← load (some p) (i + (n - 1 - k))
      store (some p) (j + (n - 1 - k)) x) s =
        .ok () ⟨s.heap.put p (some (over b b (i + (n - m)) (j + (n - m)) m)), s.v⟩ by
    have := H n (Nat.le_refl _); simpa using this
  intro m
  induction m with
  | zero =>
    intro _
    have : ∀ i' j', over b b i' j' 0 = b := by
      intro i' j'
      cases b; simp only [over, Buf.mk.injEq, true_and]; funext x; rw [if_neg (by omega)]
    rw [this, put_mem _ _ hb]; rfl
  | succ m ih =>
    intro hm
    simp only [loop, bind_apply]
    rw [ih (by omega)]
    simp only
    rw [load_some (b := over b b (i + (n - m)) (j + (n - m)) m) (by simp only [put_same])
      (by simp only [over]; omega)]
    simp only
    rw [store_some (b := over b b (i + (n - m)) (j + (n - m)) m) (by simp only [put_same])
      (by simp only [over]; omega)]
    simp only [put_put]
    congr 4
    simp only [over, Buf.mk.injEq, true_and]
    funext x
    by_cases hx : x = j + (n - 1 - m)
    · rw [if_pos hx, if_neg (show ¬(j + (n - m) ≤ i + (n - 1 - m) ∧ i + (n - 1 - m) < j + (n - m) + m) by omega),
        if_pos (by omega)]
      congr 1; omega
    · rw [if_neg hx]
      by_cases h2 : j + (n - m) ≤ x ∧ x < j + (n - m) + m
      · rw [if_pos h2, if_pos (by omega)]; congr 1; omega
      · rw [if_neg h2, if_neg (by omega)]

/-- Copying or moving no elements touches nothing. -/
theorem copyRange_zero (p q : Option Nat) (i j : Nat) (s : St α) : copyRange p i q j 0 s = .ok () s := rfl
theorem moveBackward_zero (p : Option Nat) (i j : Nat) (s : St α) : moveBackward p i j 0 s = .ok () s := rfl

/-- Cells from `j` on replaced by given values. -/
def overlay (b : Buf (Option α)) (j : Nat) (xs : List α) : Buf (Option α) :=
  ⟨b.len, fun x => if j ≤ x ∧ x < j + xs.length then xs[x - j]? else b.get x⟩

theorem writeAll_nil (q : Option Nat) (j : Nat) (s : St α) : writeAll q j [] s = .ok () s := rfl

theorem writeAll_vals {q : Nat} (xs : List α) : ∀ {s : St α} {j : Nat} {b : Buf (Option α)},
    s.heap.mem q = some b → j + xs.length ≤ b.len →
    writeAll (some q) j (xs.map .val) s = .ok () ⟨s.heap.put q (some (overlay b j xs)), s.v⟩ := by
  induction xs with
  | nil =>
    intro s j b hb _
    have : overlay b j [] = b := by
      cases b; simp only [overlay, Buf.mk.injEq, true_and]; funext x
      rw [if_neg (by simp only [List.length_nil]; omega)]
    rw [this, put_mem _ _ hb]; rfl
  | cons y ys ih =>
    intro s j b hb hj
    simp only [List.length_cons] at hj
    simp only [List.map_cons, writeAll, deref, bind_apply, ret_apply]
    rw [store_some hb (by omega)]
    simp only
    rw [ih (b := ⟨b.len, fun k => if k = j then some y else b.get k⟩) (by simp only [put_same]) (by simp only; omega)]
    simp only [put_put]
    congr 4
    simp only [overlay, Buf.mk.injEq, true_and, List.length_cons]
    funext x
    by_cases h1 : x = j
    · subst h1
      rw [if_neg (by omega), if_pos rfl, if_pos (by omega)]
      simp
    · by_cases h2 : j ≤ x ∧ x < j + (ys.length + 1)
      · rw [if_pos (by omega), if_pos h2]
        have : x - j = (x - (j + 1)) + 1 := by omega
        rw [this, List.getElem?_cons_succ]
      · rw [if_neg (by omega), if_neg h1, if_neg h2]

theorem allocate_cases (n : Nat) (s : St α) :
    (allocate n s = .throw ⟨{ s.heap with next := s.heap.next + 1 }, s.v⟩ ∧ s.heap.fails s.heap.next n = true) ∨
    (allocate n s = .ok s.heap.next
      ⟨{ (s.heap.put s.heap.next (some (blank n))) with next := s.heap.next + 1 }, s.v⟩) := by
  unfold allocate
  split
  · next h => exact .inl ⟨rfl, h⟩
  · exact .inr rfl

end Dysco.UVec
