/-!
# Model of `dictionary.h`

A dictionary is an array of `n` values. Iterators are indices (`n` is `end()`); reading at an index
`≥ n` is undefined behaviour (`none`). The comparison operators are parameters, so that the
memory-safety theorems cover unsorted contents and NaN.
-/

namespace Dysco.Dictionary

/-- `Dictionary::_values`, dictionary.h:204. -/
structure Dict (α : Type) where
  n : Nat
  v : Nat → α

/-- The float comparisons `<` and `<=`. dictionary.h:52, 60, 66, 110, 116, 121. -/
structure Cmp (α : Type) where
  lt : α → α → Bool
  le : α → α → Bool

variable {α : Type}

/-- `*it` / `_values[i]`. dictionary.h:52, 60, 110. -/
def rd (d : Dict α) (i : Nat) : Option α := if i < d.n then some (d.v i) else none

/-- `BitFloor`, dictionary.h:191-202: largest power of two not above `n` (`n > 0`). -/
def bitFloor (n : Nat) : Nat := 2 ^ n.log2

/-- Search state: the iterator `it`, and (ghost) the largest iterator formed so far by pointer
arithmetic. dictionary.h:47, 51, 57. -/
structure S where
  it : Nat
  formed : Nat

/-- Body of the loop, dictionary.h:56-60 and 50-52, 85-89:
`idx = min(step, n-1); probe = it + idx; if (probe < base+n && *probe < val) it = probe;` -/
def probeStep (c : Cmp α) (d : Dict α) (val : α) (step : Nat) (s : S) : Option S :=
  let idx := min step (d.n - 1)
  let probe := s.it + idx
  if probe < d.n then
    match rd d probe with
    | none => none
    | some x => some ⟨if c.lt x val then probe else s.it, max s.formed probe⟩
  else some ⟨s.it, max s.formed probe⟩

/-- `while (step != 0) { …; step >>= 1; }`, dictionary.h:55-63 and 84-92. -/
def branchlessLoop (c : Cmp α) (d : Dict α) (val : α) (step : Nat) (s : S) : Option S :=
  if step = 0 then some s
  else
    match probeStep c d val step s with
    | none => none
    | some s' => branchlessLoop c d val (step / 2) s'
termination_by step
decreasing_by omega

/-- `return (it < base + n && *it < val) ? it + 1 : it;`, dictionary.h:66 and 95. -/
def finish (c : Cmp α) (d : Dict α) (val : α) (s : S) : Option S :=
  if s.it < d.n then
    match rd d s.it with
    | none => none
    | some x => if c.lt x val then some ⟨s.it + 1, max s.formed (s.it + 1)⟩ else some s
  else some s

/-- `lower_bound_branchless_two_minimum`, dictionary.h:39-67 (also `lower_bound`, 31-33).
Returns the iterator and the largest iterator formed. -/
def branchlessTwoMin (c : Cmp α) (d : Dict α) (val : α) : Option S :=
  let step := bitFloor d.n
  match probeStep c d val step ⟨0, 0⟩ with
  | none => none
  | some s =>
    match branchlessLoop c d val (step / 2) s with
    | none => none
    | some s => finish c d val s

/-- `lower_bound_branchless`, dictionary.h:74-96. -/
def branchless (c : Cmp α) (d : Dict α) (val : α) : Option S :=
  match branchlessLoop c d val (bitFloor d.n) ⟨0, 0⟩ with
  | none => none
  | some s => finish c d val s

/-- `while (p + 1 != q) { m = (p+q)/2; if (_values[m] <= val) p = m; else q = m; }`,
dictionary.h:114-120 and 137-143. With `q ≤ p` the C++ loop leaves the array: UB. -/
def bisect (c : Cmp α) (d : Dict α) (val : α) (p q : Nat) : Option (Nat × Nat) :=
  if p + 1 = q then some (p, q)
  else if _h : q ≤ p then none
  else
    match rd d ((p + q) / 2) with
    | none => none
    | some x =>
      if c.le x val then bisect c d val ((p + q) / 2) q else bisect c d val p ((p + q) / 2)
termination_by q - p
decreasing_by all_goals omega

/-- `return (_values[p] < val) ? (&_values[q]) : (&_values[p]);`, dictionary.h:121 and 144. -/
def pick (c : Cmp α) (d : Dict α) (val : α) (pq : Nat × Nat) : Option Nat :=
  match rd d pq.1 with
  | none => none
  | some x => some (if c.lt x val then pq.2 else pq.1)

/-- `lower_bound_two_minimum`, dictionary.h:106-122. -/
def twoMin (c : Cmp α) (d : Dict α) (val : α) : Option Nat :=
  let m := d.n / 2
  match rd d m with
  | none => none
  | some x =>
    match (if c.le x val then bisect c d val m d.n else bisect c d val 0 m) with
    | none => none
    | some pq => pick c d val pq

/-- `lower_bound_one_minimum`, dictionary.h:134-145. -/
def oneMin (c : Cmp α) (d : Dict α) (val : α) : Option Nat :=
  match bisect c d val 0 d.n with
  | none => none
  | some pq => pick c d val pq

/-- Loop of `lower_bound_slow`, dictionary.h:156-164: like `bisect` with `m = p + (q-p)/2`. -/
def bisectSlow (c : Cmp α) (d : Dict α) (val : α) (p q : Nat) : Option (Nat × Nat) :=
  if p + 1 = q then some (p, q)
  else if _h : q ≤ p then none
  else
    match rd d (p + (q - p) / 2) with
    | none => none
    | some x =>
      if c.le x val then bisectSlow c d val (p + (q - p) / 2) q
      else bisectSlow c d val p (p + (q - p) / 2)
termination_by q - p
decreasing_by all_goals omega

/-- `lower_bound_slow`, dictionary.h:153-166. -/
def slow (c : Cmp α) (d : Dict α) (val : α) : Option Nat :=
  match bisectSlow c d val 0 d.n with
  | none => none
  | some pq => pick c d val pq

/-- `Dictionary::lower_bound`, dictionary.h:31-33: the index returned. -/
def lowerBound (c : Cmp α) (d : Dict α) (val : α) : Option Nat :=
  (branchlessTwoMin c d val).map S.it

/-- `Dictionary::symbol`, dictionary.h:168-171. With assertions enabled (`debug`), the first
position aborts (`none`). -/
def symbol (debug : Bool) (it : Nat) : Option Nat :=
  if debug ∧ ¬ it > 0 then none else some it

end Dysco.Dictionary
