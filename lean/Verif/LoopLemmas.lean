import Verif.LoopModel

/-! # Loop invariants and buffer laws -/

namespace Dysco

/-- Loop rule: an invariant that every iteration re-establishes (and under which no iteration is
undefined) holds at the end. -/
theorem forRange_inv {σ : Type} (n : Nat) (body : Nat → σ → Option σ) (s : σ)
    (Inv : Nat → σ → Prop) (h0 : Inv 0 s)
    (hs : ∀ i t, i < n → Inv i t → ∃ t', body i t = some t' ∧ Inv (i + 1) t') :
    ∃ t, forRange n body s = some t ∧ Inv n t := by
  induction n with
  | zero => exact ⟨s, rfl, h0⟩
  | succ n ih =>
    obtain ⟨t, e, ht⟩ := ih (fun i t hi => hs i t (by omega))
    obtain ⟨t', e', ht'⟩ := hs n t (by omega) ht
    exact ⟨t', by rw [forRange, e, Option.bind_some, e'], ht'⟩

namespace Buf
variable {α : Type}

theorem rd_some {b : Buf α} {i : Nat} (h : i < b.len) : b.rd i = some (b.get i) := if_pos h

theorem wr_some {b : Buf α} {i : Nat} (h : i < b.len) (x : α) :
    b.wr i x = some ⟨b.len, fun j => if j = i then x else b.get j⟩ := if_pos h

end Buf

/-- Flat index of a two-dimensional array: rows do not overlap. -/
theorem flat_inj {n r c r' c' : Nat} (hc : c < n) (hc' : c' < n) (h : r * n + c = r' * n + c') :
    r = r' ∧ c = c' := by
  have hn : 0 < n := by omega
  have h1 : (r * n + c) / n = r := by
    rw [Nat.mul_comm, Nat.mul_add_div hn, Nat.div_eq_of_lt hc]; omega
  have h2 : (r' * n + c') / n = r' := by
    rw [Nat.mul_comm, Nat.mul_add_div hn, Nat.div_eq_of_lt hc']; omega
  have hr : r = r' := by rw [← h1, ← h2, h]
  subst hr
  exact ⟨rfl, by omega⟩

theorem flat_lt {n m r c : Nat} (hr : r < m) (hc : c < n) : r * n + c < m * n := by
  have : (r + 1) * n ≤ m * n := Nat.mul_le_mul_right n hr
  rw [Nat.add_mul, Nat.one_mul] at this
  omega

end Dysco
