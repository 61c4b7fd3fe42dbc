import Verif.UVectorModel
import Mathlib.Order.Defs.LinearOrder

/-!
# `UVector`: comparison operators (C63)
-/

namespace Dysco.UVec

variable {α : Type}

/-- `operator==` is equality of the contents. -/
theorem eqv_iff [DecidableEq α] (a b : List α) : eqv a b = true ↔ a = b := by
  constructor
  · intro h
    simp only [eqv, Bool.and_eq_true, beq_iff_eq, List.all_eq_true, List.mem_range] at h
    obtain ⟨hl, hi⟩ := h
    apply List.ext_getElem? 
    intro i
    by_cases hlt : i < a.length
    · exact hi i hlt
    · rw [List.getElem?_eq_none (by omega), List.getElem?_eq_none (by omega)]
  · rintro rfl; simp [eqv]

/-- `operator<` on elements with a total order is the lexicographic order. -/
theorem less_iff [LinearOrder α] (a b : List α) :
    less (fun x y => decide (x < y)) a b = true ↔ List.Lex (· < ·) a b := by
  unfold less
  induction a generalizing b with
  | nil =>
    cases b with
    | nil => simp [cmpLoop]
    | cons y ys => simp [cmpLoop]
  | cons x xs ih =>
    cases b with
    | nil => simp [cmpLoop]
    | cons y ys =>
      simp only [cmpLoop, decide_eq_true_eq, List.length_cons, Nat.add_lt_add_iff_right]
      rcases lt_trichotomy x y with h | h | h
      · rw [if_pos h]
        exact ⟨fun _ => .rel h, fun _ => rfl⟩
      · subst h
        rw [if_neg (lt_irrefl x), if_neg (lt_irrefl x), ih ys]
        exact ⟨fun h => .cons h, fun h => by
          cases h with
          | rel h => exact absurd h (lt_irrefl x)
          | cons h => exact h⟩
      · rw [if_neg (not_lt_of_gt h), if_pos h]
        refine ⟨by simp, fun h2 => ?_⟩
        cases h2 with
        | rel h3 => exact absurd h3 (not_lt_of_gt h)
        | cons h3 => exact absurd h (lt_irrefl _)

/-- `operator<=` is the negation of `operator<` with the sides exchanged. -/
theorem lessEq_iff [LinearOrder α] (a b : List α) :
    lessEq (fun x y => decide (x < y)) a b = true ↔ ¬ less (fun x y => decide (x < y)) b a = true := by
  unfold lessEq less
  induction a generalizing b with
  | nil =>
    cases b with
    | nil => simp [cmpLoop]
    | cons y ys => simp [cmpLoop]
  | cons x xs ih =>
    cases b with
    | nil => simp [cmpLoop]
    | cons y ys =>
      simp only [cmpLoop, decide_eq_true_eq, List.length_cons, Nat.add_lt_add_iff_right, Nat.add_le_add_iff_right]
      rcases lt_trichotomy x y with h | h | h
      · rw [if_pos h, if_neg (not_lt_of_gt h), if_pos h]; simp
      · subst h
        rw [if_neg (lt_irrefl x), if_neg (lt_irrefl x), if_neg (lt_irrefl x), if_neg (lt_irrefl x)]
        exact ih ys
      · rw [if_neg (not_lt_of_gt h), if_pos h, if_pos h]; simp

/-- **C63**: exactly one of `a < b`, `a == b`, `a > b` holds, and `<=`, `>=` follow. -/
theorem compare_trichotomy [LinearOrder α] (a b : List α) :
    let lt := fun x y : α => decide (x < y)
    (less lt a b = true ∨ eqv a b = true ∨ greater lt a b = true) ∧
    ¬ (less lt a b = true ∧ eqv a b = true) ∧ ¬ (less lt a b = true ∧ greater lt a b = true) ∧
    ¬ (greater lt a b = true ∧ eqv a b = true) ∧
    (lessEq lt a b = true ↔ less lt a b = true ∨ eqv a b = true) ∧
    (greaterEq lt a b = true ↔ greater lt a b = true ∨ eqv a b = true) := by
  have irr : ∀ c : List α, ¬ List.Lex (· < ·) c c := by
    intro c h
    induction c with
    | nil => cases h
    | cons x xs ih =>
      cases h with
      | rel h => exact lt_irrefl x h
      | cons h => exact ih h
  have asym : ∀ c d : List α, List.Lex (· < ·) c d → ¬ List.Lex (· < ·) d c := by
    intro c
    induction c with
    | nil => intro d _ h; cases h
    | cons x xs ih =>
      intro d h h2
      cases h with
      | rel h =>
        cases h2 with
        | rel h2 => exact lt_asymm h h2
        | cons h2 => exact lt_irrefl _ h
      | cons h =>
        cases h2 with
        | rel h2 => exact lt_irrefl _ h2
        | cons h2 => exact ih _ h h2
  have tri : ∀ c d : List α, List.Lex (· < ·) c d ∨ c = d ∨ List.Lex (· < ·) d c := by
    intro c
    induction c with
    | nil => intro d; cases d with
      | nil => exact .inr (.inl rfl)
      | cons y ys => exact .inl .nil
    | cons x xs ih =>
      intro d
      cases d with
      | nil => exact .inr (.inr .nil)
      | cons y ys =>
        rcases lt_trichotomy x y with h | h | h
        · exact .inl (.rel h)
        · subst h
          rcases ih ys with h | h | h
          · exact .inl (.cons h)
          · exact .inr (.inl (by rw [h]))
          · exact .inr (.inr (.cons h))
        · exact .inr (.inr (.rel h))
  intro lt
  simp only [greater, greaterEq, lt, less_iff, eqv_iff, lessEq_iff]
  refine ⟨tri a b, ?_, ?_, ?_, ?_, ?_⟩
  · rintro ⟨h, rfl⟩; exact irr _ h
  · rintro ⟨h, h2⟩; exact asym _ _ h h2
  · rintro ⟨h, rfl⟩; exact irr _ h
  · constructor
    · intro h; rcases tri a b with h2 | h2 | h2
      · exact .inl h2
      · exact .inr h2
      · exact absurd h2 h
    · rintro (h | rfl)
      · exact asym _ _ h
      · exact irr _
  · constructor
    · intro h; rcases tri a b with h2 | h2 | h2
      · exact absurd h2 h
      · exact .inr h2
      · exact .inl h2
    · rintro (h | rfl)
      · exact asym _ _ h
      · exact irr _

/-- With an element that is not ordered (a NaN) the comparison is not an order: `<` fails both ways, `<=` holds
both ways, although the contents differ. -/
theorem compare_unordered (lt : α → α → Bool) (x y : α) (h1 : lt x y = false) (h2 : lt y x = false) :
    less lt [x] [y] = false ∧ less lt [y] [x] = false ∧ lessEq lt [x] [y] = true ∧ lessEq lt [y] [x] = true := by
  simp [less, lessEq, cmpLoop, h1, h2]

example : less (fun x y : Nat => decide (x < y)) [1, 5] [2] = true ∧
    less (fun x y : Nat => decide (x < y)) [1] [1, 0] = true := by decide

end Dysco.UVec
