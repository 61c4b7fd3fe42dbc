import Mathlib.Data.List.Nodup
import Mathlib.Data.List.Range

/-!
# C152: arrays that are not contiguous

`getValues` and `putValues` get a casacore array, whose elements need not be next to each other in memory. They ask for contiguous
storage, which is a copy if the array is not contiguous, and give it back at the end. The functions of the array are not in the code;
they are modelled as casacore documents them. What happens between asking for the storage and using it (waiting, storing and loading
blocks) is in `ColumnModel`; here only its outcome counts.
-/

namespace Dysco.Arrays

variable {α : Type}

/-- `casacore::Array`: the memory, and where in it the elements are, in the order of the array. Not in the code. -/
structure Arr (α : Type) where
  mem : Nat → α
  pos : List Nat

/-- The elements in the order of the array. Not in the code. -/
def Arr.elems (a : Arr α) : List α := a.pos.map a.mem

/-- `Array::contiguousStorage`. Not in the code. -/
def Arr.contiguous (a : Arr α) : Bool := a.pos == List.range' (a.pos.headD 0) a.pos.length

/-- What `dataPtr` points to: the memory of the array or a copy. Not in the code. -/
inductive Ptr (α : Type) where
  | inside (start : Nat)
  | copy (vals : List α)

/-- `Array::getStorage`, called at threadeddyscocolumn.cc:122 and 174; `deleteIt` is true for a copy. -/
def Arr.getStorage (a : Arr α) : Ptr α := if a.contiguous then .inside (a.pos.headD 0) else .copy a.elems

/-- The number of copies that `getStorage` allocated: threadeddyscocolumn.cc:121-122, 173-174. -/
def Ptr.count : Ptr α → Nat
  | .inside _ => 0
  | .copy _ => 1

/-- `*dataArr = DataType()`: threadeddyscocolumn.cc:113 and 118. -/
def Arr.assign (a : Arr α) (zero : α) : Arr α := { a with mem := fun p => if p ∈ a.pos then zero else a.mem p }

/-- The `memcpy` of `GetData`, timeblockbuffer.h:41-45, into the storage; `none` if it writes outside of it. -/
def Arr.fill (a : Arr α) (ptr : Ptr α) (vals : List α) : Option (Arr α × Ptr α) :=
  if vals.length ≤ a.pos.length then
    match ptr with
    | .inside start => some ({ a with mem := fun p => if start ≤ p then vals.getD (p - start) (a.mem p) else a.mem p }, ptr)
    | .copy old => some (a, .copy (vals ++ old.drop vals.length))
  else none

/-- `Array::putStorage`, called at threadeddyscocolumn.cc:140: a copy is put back into the array. -/
def Arr.putStorage (a : Arr α) : Ptr α → Arr α
  | .inside _ => a
  | .copy vals => { a with mem := fun p => if p ∈ a.pos then vals.getD (a.pos.idxOf p) (a.mem p) else a.mem p }

/-- `data[i]` for each `i` below `n`, as `SetData` reads them, timeblockbuffer.h:37-38; `none` if it reads outside the storage. -/
def Arr.load (a : Arr α) (ptr : Ptr α) (n : Nat) : Option (List α) :=
  if n ≤ a.pos.length then
    match ptr with
    | .inside start => some ((List.range n).map fun i => a.mem (start + i))
    | .copy vals => some (vals.take n)
  else none

/-- What `getValues` finds: no stored block, threadeddyscocolumn.cc:109-118; an exception while the block is stored or loaded,
123-135; or the values of the row, 139. -/
inductive Found (α : Type) where
  | unwritten
  | throws
  | row (vals : List α)

/-- What a call leaves behind: the array, the number of allocated copies, and whether it returned normally. Not in the code. -/
structure After (α : Type) where
  arr : Arr α
  copies : Nat
  returned : Bool

/-- `getValues`, threadeddyscocolumn.cc:107-143, with `copies` the copies that exist before. `none` is undefined behaviour. -/
def getValues (zero : α) (a : Arr α) (copies : Nat) : Found α → Option (After α)
  | .unwritten => some ⟨a.assign zero, copies, true⟩
  | .throws => some ⟨a, copies + a.getStorage.count, false⟩
  | .row vals => (a.fill a.getStorage vals).map fun (a', ptr) => ⟨a'.putStorage ptr, copies + a.getStorage.count - ptr.count, true⟩

/-- `putValues`, threadeddyscocolumn.cc:170-219, for a shape of `n` values: what it leaves, and the values that `SetData` stores. `ok` says
that nothing before `SetData` (lines 175-211) raised an exception. -/
def putValues (n : Nat) (a : Arr α) (copies : Nat) (ok : Bool) : Option (After α × Option (List α)) :=
  let ptr := a.getStorage
  if ok then (a.load ptr n).map fun vals => (⟨a, copies + ptr.count - ptr.count, true⟩, some vals)
  else some (⟨a, copies + ptr.count, false⟩, none)

theorem Arr.elems_length (a : Arr α) : a.elems.length = a.pos.length := List.length_map _

theorem contiguous_pos {a : Arr α} (h : a.contiguous = true) : a.pos = List.range' (a.pos.headD 0) a.pos.length := eq_of_beq h

/-- **C152**, reading: whatever the layout of the array, its elements become the values of the row, nothing else in memory changes and
no copy remains. A row with more values than the array is written outside of it; of a longer array the rest is kept. -/
theorem get_row (zero : α) {a : Arr α} (hn : a.pos.Nodup) (copies : Nat) (vals : List α) :
    (vals.length ≤ a.pos.length → ∃ b, getValues zero a copies (.row vals) = some ⟨b, copies, true⟩ ∧ b.pos = a.pos ∧
      b.elems = vals ++ a.elems.drop vals.length ∧ ∀ p, p ∉ a.pos → b.mem p = a.mem p) ∧
    (getValues zero a copies (.row vals) = none ↔ a.pos.length < vals.length) := by
  constructor
  · intro hl
    cases hc : a.contiguous with
    | true =>
      have hs : a.getStorage = .inside (a.pos.headD 0) := if_pos hc
      have hp := contiguous_pos hc
      have hg : getValues zero a copies (.row vals) =
          some ⟨⟨fun p => if a.pos.headD 0 ≤ p then vals.getD (p - a.pos.headD 0) (a.mem p) else a.mem p, a.pos⟩, copies, true⟩ := by
        simp only [getValues, Arr.fill, if_pos hl, hs, Option.map_some, Arr.putStorage, Nat.add_sub_cancel]
      refine ⟨_, hg, rfl, ?_, ?_⟩
      · clear hg
        generalize hst : a.pos.headD 0 = st at *
        unfold Arr.elems
        dsimp only
        refine List.ext_getElem? fun i => ?_
        rw [List.getElem?_map]
        by_cases hi : i < a.pos.length
        · have hg : a.pos[i]? = some (st + i) := by
            rw [hp, List.getElem?_range' hi, Nat.one_mul]
          rw [hg, Option.map_some, if_pos (Nat.le_add_right _ _), Nat.add_sub_cancel_left]
          by_cases hv : i < vals.length
          · rw [List.getElem?_append_left hv, List.getD_eq_getElem?_getD, List.getElem?_eq_getElem hv, Option.getD_some]
          · rw [List.getElem?_append_right (by omega), List.getD_eq_getElem?_getD, List.getElem?_eq_none (by omega), Option.getD_none,
              List.getElem?_drop, Nat.add_sub_of_le (by omega), List.getElem?_map, hg, Option.map_some]
        · rw [List.getElem?_eq_none (by omega), Option.map_none, eq_comm, List.getElem?_eq_none_iff]
          simp only [List.length_append, List.length_drop, List.length_map]
          omega
      · intro p hpn
        show (if _ then _ else _) = _
        split
        · rename_i hle
          rw [List.getD_eq_getElem?_getD, List.getElem?_eq_none, Option.getD_none]
          by_contra hlt
          apply hpn
          rw [hp, List.mem_range'_1]
          omega
        · rfl
    | false =>
      have hs : a.getStorage = .copy a.elems := if_neg (by simp [hc])
      have hg : getValues zero a copies (.row vals) =
          some ⟨a.putStorage (.copy (vals ++ a.elems.drop vals.length)), copies, true⟩ := by
        simp only [getValues, Arr.fill, if_pos hl, hs, Option.map_some, Ptr.count, Nat.add_sub_cancel]
      refine ⟨_, hg, rfl, ?_, fun p hpn => if_neg hpn⟩
      have hlen : (vals ++ a.elems.drop vals.length).length = a.pos.length := by
        rw [List.length_append, List.length_drop, a.elems_length]
        omega
      unfold Arr.elems Arr.putStorage
      dsimp only
      refine List.ext_getElem? fun i => ?_
      rw [List.getElem?_map]
      by_cases hi : i < a.pos.length
      · rw [List.getElem?_eq_getElem hi, Option.map_some, if_pos (List.getElem_mem hi), hn.idxOf_getElem i hi,
          List.getD_eq_getElem?_getD]
        change i < _ at hi
        have := List.getElem?_eq_getElem (l := vals ++ a.elems.drop vals.length) (hlen.symm ▸ hi)
        unfold Arr.elems at this
        rw [this, Option.getD_some]
      · rw [List.getElem?_eq_none (by omega), Option.map_none, eq_comm, List.getElem?_eq_none_iff]
        change (vals ++ a.elems.drop vals.length).length ≤ i
        omega
  · simp only [getValues, Arr.fill, Option.map_eq_none_iff]
    split
    · rename_i h
      refine ⟨fun h0 => ?_, fun h0 => absurd h (by omega)⟩
      cases hs : a.getStorage <;> rw [hs] at h0 <;> cases h0
    · rename_i h
      exact ⟨fun _ => by omega, fun _ => rfl⟩

/-- **C152**, rows that were not stored: all elements become zero, also of an array that is not contiguous. -/
theorem get_unwritten (zero : α) (a : Arr α) (copies : Nat) :
    ∃ b, getValues zero a copies .unwritten = some ⟨b, copies, true⟩ ∧ b.pos = a.pos ∧ b.elems = List.replicate a.pos.length zero ∧
      ∀ p, p ∉ a.pos → b.mem p = a.mem p := by
  refine ⟨_, rfl, rfl, ?_, fun p hp => if_neg hp⟩
  rw [List.eq_replicate_iff]
  refine ⟨List.length_map _, fun x hx => ?_⟩
  obtain ⟨p, hp, rfl⟩ := List.mem_map.1 hx
  exact if_pos hp

/-- **C152**, writing: the values that are stored are the first elements of the array in its own order, the array does not change and no
copy remains. The call is undefined if the array has fewer elements than the shape of the column. -/
theorem put_row (n : Nat) (a : Arr α) (copies : Nat) :
    (n ≤ a.pos.length → putValues n a copies true = some (⟨a, copies, true⟩, some (a.elems.take n))) ∧
    (putValues n a copies true = none ↔ a.pos.length < n) := by
  have key : n ≤ a.pos.length → a.load a.getStorage n = some (a.elems.take n) := by
    intro hl
    unfold Arr.load Arr.getStorage
    rw [if_pos hl]
    split
    · rename_i hs
      split at hs
      · rename_i hc
        injection hs with hs
        refine congrArg some (List.ext_getElem? fun i => ?_)
        rw [List.getElem?_map, List.getElem?_take]
        by_cases hi : i < n
        · rw [if_pos hi, List.getElem?_range hi, Option.map_some]
          unfold Arr.elems
          have hg : a.pos[i]? = some (a.pos.headD 0 + i) := by
            conv_lhs => rw [contiguous_pos hc]
            rw [List.getElem?_range' (by omega), Nat.one_mul]
          rw [List.getElem?_map, hg, Option.map_some, hs]
        · rw [if_neg hi, List.getElem?_eq_none (by simpa using hi), Option.map_none]
      · cases hs
    · rename_i hs
      split at hs
      · cases hs
      · injection hs with hs
        rw [hs]
  constructor
  · intro hl
    unfold putValues
    rw [if_pos rfl, key hl, Option.map_some, Nat.add_sub_cancel]
  · unfold putValues
    rw [if_pos rfl, Option.map_eq_none_iff]
    constructor
    · intro h
      by_contra hlt
      rw [key (by omega)] at h
      cases h
    · intro h
      exact if_neg (by omega)

/-- **C152**: what is put from one array and read into another one is the same, whatever the layouts of the two. -/
theorem put_get (zero : α) {a b : Arr α} (hb : b.pos.Nodup) (hl : a.pos.length = b.pos.length) (c d : Nat) :
    ∃ vals b', putValues a.pos.length a c true = some (⟨a, c, true⟩, some vals) ∧
      getValues zero b d (.row vals) = some ⟨b', d, true⟩ ∧ b'.pos = b.pos ∧ b'.elems = a.elems := by
  have hlen : (a.elems.take a.pos.length).length = b.pos.length := by
    rw [List.length_take, a.elems_length, Nat.min_self, hl]
  obtain ⟨b', h1, h2, h3, -⟩ := (get_row zero hb d (a.elems.take a.pos.length)).1 hlen.le
  refine ⟨_, b', (put_row _ a c).1 (Nat.le_refl _), h1, h2, ?_⟩
  rw [h3, hlen, List.drop_of_length_le b.elems_length.le, List.append_nil, List.take_of_length_le a.elems_length.le]

/-- A call with its array. Not in the code. -/
inductive Call (α : Type) where
  | get (a : Arr α) (found : Found α)
  | put (a : Arr α) (ok : Bool)

/-- A sequence of calls, with the number of copies that they leave. Not in the code. -/
def run (zero : α) (n : Nat) : List (Call α) → Nat → Option Nat
  | [], copies => some copies
  | .get a found :: rest, copies => (getValues zero a copies found).bind fun s => run zero n rest s.copies
  | .put a ok :: rest, copies => (putValues n a copies ok).bind fun s => run zero n rest s.1.copies

/-- A call in which an exception passes through while there is a copy. Not in the code. -/
def Call.leaks : Call α → Bool
  | .get a .throws => !a.contiguous
  | .put a false => !a.contiguous
  | _ => false

theorem count_eq (a : Arr α) : a.getStorage.count = if (!a.contiguous) = true then 1 else 0 := by
  unfold Arr.getStorage
  cases a.contiguous <;> rfl

/-- **C152**: the copies that remain after any sequence of calls are exactly those of the calls that raised an exception while they had
an array that is not contiguous: nothing frees these. -/
theorem run_copies (zero : α) (n : Nat) : ∀ {calls : List (Call α)} {copies left : Nat}, run zero n calls copies = some left →
    left = copies + calls.countP Call.leaks
  | [], copies, left, h => (Option.some.inj h).symm
  | .get a found :: rest, copies, left, h => by
    obtain ⟨s, hs, hr⟩ := Option.bind_eq_some_iff.1 h
    have ih := run_copies zero n hr
    rw [List.countP_cons, ih]
    cases found with
    | unwritten =>
      obtain rfl := Option.some.inj hs
      simp [Call.leaks]
    | throws =>
      obtain rfl := Option.some.inj hs
      show copies + a.getStorage.count + _ = _ + (_ + if (!a.contiguous) = true then 1 else 0)
      rw [count_eq]
      omega
    | row vals =>
      obtain ⟨⟨a', ptr⟩, hf, rfl⟩ := Option.map_eq_some_iff.1 hs
      have : ptr.count = a.getStorage.count := by
        unfold Arr.fill at hf
        split at hf
        · split at hf
          · rename_i hg
            obtain ⟨-, rfl⟩ := Prod.mk.inj (Option.some.inj hf)
            rfl
          · rename_i hg
            obtain ⟨-, rfl⟩ := Prod.mk.inj (Option.some.inj hf)
            rw [hg]
            rfl
        · cases hf
      simp [Call.leaks, this]
  | .put a ok :: rest, copies, left, h => by
    obtain ⟨s, hs, hr⟩ := Option.bind_eq_some_iff.1 h
    have ih := run_copies zero n hr
    rw [List.countP_cons, ih]
    cases ok with
    | true =>
      obtain ⟨vals, -, rfl⟩ := Option.map_eq_some_iff.1 hs
      simp [Call.leaks]
    | false =>
      obtain rfl := Option.some.inj hs
      show copies + a.getStorage.count + _ = _ + (_ + if (!a.contiguous) = true then 1 else 0)
      rw [count_eq]
      omega

/-- Every second element of the memory: not contiguous. -/
def strided : Arr Nat := ⟨fun p => 10 * p, [1, 3, 5]⟩

example : strided.contiguous = false ∧ (Arr.mk (fun p => p) [4, 5, 6]).contiguous = true := by decide

/-- A strided array is filled in its own order, and the elements in between are kept. -/
example : ∃ b, getValues 0 strided 0 (.row [7, 8, 9]) = some ⟨b, 0, true⟩ ∧ b.elems = [7, 8, 9] ∧ b.mem 2 = 20 := by
  obtain ⟨b, h1, -, h3, h4⟩ := (get_row 0 (a := strided) (by decide) 0 [7, 8, 9]).1 (by decide)
  exact ⟨b, h1, h3, h4 2 (by decide)⟩

/-- A contiguous array is put and read into a strided one. -/
example : ∃ vals b', putValues 3 (⟨fun p => p, [4, 5, 6]⟩ : Arr Nat) 0 true = some (⟨⟨fun p => p, [4, 5, 6]⟩, 0, true⟩, some vals) ∧
    getValues 0 strided 0 (.row vals) = some ⟨b', 0, true⟩ ∧ b'.elems = [4, 5, 6] := by
  obtain ⟨vals, b', h1, h2, -, h4⟩ := put_get 0 (a := ⟨fun p => p, [4, 5, 6]⟩) (b := strided) (by decide) rfl 0 0
  exact ⟨vals, b', h1, h2, h4⟩

/-- One copy is lost in a failing put of a strided array, none in a failing get of a contiguous one. -/
example : run 0 3 [.put strided false, .get ⟨fun p => p, [4, 5, 6]⟩ .throws, .put strided true] 0 = some 1 := rfl

end Dysco.Arrays
