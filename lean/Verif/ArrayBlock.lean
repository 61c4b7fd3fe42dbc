import Verif.ArrayStorage
import Verif.BlockProps

/-!
# C152: the storage of an array as the buffer that `GetData` and `SetData` see

`ArrayStorage` has its own short form of the two copy loops. Here they are compared with the model of `timeblockbuffer.h`.
-/

namespace Dysco.Arrays

variable {α : Type}

/-- What `dataPtr` points to, as a buffer. Not in the code. -/
def Arr.buf (a : Arr α) : Ptr α → Buf α
  | .inside start => ⟨a.pos.length, fun i => a.mem (start + i)⟩
  | .copy vals => ⟨a.pos.length, fun i => vals.getD i (a.mem 0)⟩

theorem Arr.buf_len (a : Arr α) (ptr : Ptr α) : (a.buf ptr).len = a.pos.length := by
  cases ptr <;> rfl

/-- The values of a row of a block as a list. Not in the code. -/
def rowValues (b : Block α) (r : Nat) : List α := (List.range (b.get r).vis.len).map (b.get r).vis.get

/-- **C152**: filling the storage of an array is `GetData` on that storage. -/
theorem fill_getData (a : Arr α) (b : Block α) {r : Nat} (hr : r < b.len) (hl : (b.get r).vis.len ≤ a.pos.length) :
    ∃ a' ptr dest, a.fill a.getStorage (rowValues b r) = some (a', ptr) ∧ TimeBlock.getData b r (a.buf a.getStorage) = some dest ∧
      dest.len = a.pos.length ∧ ∀ i, i < a.pos.length → dest.get i = (a'.buf ptr).get i := by
  obtain ⟨dest, e, p1, p2, p3⟩ := TimeBlock.copy_loop (b.get r).vis.len (b.get r).vis (a.buf a.getStorage) (Nat.le_refl _)
    (by rw [a.buf_len]; exact hl)
  have hv : (rowValues b r).length = (b.get r).vis.len := by simp [rowValues]
  have hd : TimeBlock.getData b r (a.buf a.getStorage) = some dest := by
    unfold TimeBlock.getData
    rw [Buf.rd_some hr, Option.bind_some, e]
  have hf : a.fill a.getStorage (rowValues b r) = match a.getStorage with
      | .inside start => some (⟨fun p => if start ≤ p then (rowValues b r).getD (p - start) (a.mem p) else a.mem p, a.pos⟩, .inside start)
      | .copy old => some (a, .copy (rowValues b r ++ old.drop (rowValues b r).length)) := by
    unfold Arr.fill
    rw [if_pos (by omega)]
    cases a.getStorage <;> rfl
  have hg : ∀ i, i < (b.get r).vis.len → (rowValues b r)[i]? = some ((b.get r).vis.get i) := fun i hi => by
    simp [rowValues, hi]
  cases hs : a.getStorage with
  | inside start =>
    rw [hs] at hf hd p3
    refine ⟨_, _, dest, hf, hd, by rw [p1, hs]; rfl, fun i _ => ?_⟩
    show _ = if start ≤ start + i then _ else _
    rw [if_pos (Nat.le_add_right _ _), Nat.add_sub_cancel_left, List.getD_eq_getElem?_getD]
    by_cases h : i < (b.get r).vis.len
    · rw [hg i h, Option.getD_some, p2 i h]
    · rw [List.getElem?_eq_none (by omega), Option.getD_none, p3 i (by omega)]
      rfl
  | copy old =>
    rw [hs] at hf hd p3
    refine ⟨_, _, dest, hf, hd, by rw [p1, hs]; rfl, fun i _ => ?_⟩
    show _ = List.getD _ _ _
    rw [List.getD_eq_getElem?_getD]
    by_cases h : i < (b.get r).vis.len
    · rw [List.getElem?_append_left (by omega), hg i h, Option.getD_some, p2 i h]
    · rw [List.getElem?_append_right (by omega), List.getElem?_drop, Nat.add_sub_of_le (by omega), p3 i (by omega)]
      exact List.getD_eq_getElem?_getD

/-- A row of two values in a strided array of three. -/
example : ∃ a' ptr dest, strided.fill strided.getStorage [0, 1] = some (a', ptr) ∧
    TimeBlock.getData ⟨1, fun _ => ⟨0, 0, ⟨2, fun i => i⟩⟩⟩ 0 (strided.buf strided.getStorage) = some dest ∧
    dest.len = 3 ∧ ∀ i, i < 3 → dest.get i = (a'.buf ptr).get i :=
  fill_getData strided ⟨1, fun _ => ⟨0, 0, ⟨2, fun i => i⟩⟩⟩ (r := 0) Nat.one_pos (show 2 ≤ 3 by decide)

/-- The storage of an array has its elements in their order. -/
theorem buf_elems (a : Arr α) {i : Nat} (hi : i < a.pos.length) : a.elems[i]? = some ((a.buf a.getStorage).get i) := by
  unfold Arr.getStorage
  split
  · rename_i hc
    unfold Arr.elems
    have hg : a.pos[i]? = some (a.pos.headD 0 + i) := by
      conv_lhs => rw [contiguous_pos hc]
      rw [List.getElem?_range' hi, Nat.one_mul]
    rw [List.getElem?_map, hg]
    rfl
  · show _ = some (List.getD _ _ _)
    rw [List.getD_eq_getElem?_getD, List.getElem?_eq_getElem (by rw [a.elems_length]; exact hi), Option.getD_some]

/-- **C152**: the values that `SetData` reads from the storage of an array are its elements, and these are the row of the block. -/
theorem load_setData (zero : α) (nPol nCh : Nat) {m : TimeBlock.RowMap α} {b : Block α} (h : TimeBlock.Refines (nPol * nCh) m b)
    (a : Arr α) (hl : nPol * nCh ≤ a.pos.length) (r a1 a2 : Nat) :
    ∃ b', TimeBlock.setData zero nPol nCh b r a1 a2 (a.buf a.getStorage) = some b' ∧ r < b'.len ∧
      a.load a.getStorage (nPol * nCh) = some (rowValues b' r) ∧ rowValues b' r = a.elems.take (nPol * nCh) := by
  obtain ⟨b', e, h'⟩ := TimeBlock.setData_refines zero nPol nCh h r a1 a2 (a.buf a.getStorage) (by rw [a.buf_len]; exact hl)
  have hr : (TimeBlock.Op.set r a1 a2 (a.buf a.getStorage)).spec m r = some (a1, a2, (a.buf a.getStorage).get) := if_pos rfl
  obtain ⟨-, -, q3, q4⟩ := h'.row r _ _ _ hr
  have hv : rowValues b' r = a.elems.take (nPol * nCh) := by
    unfold rowValues
    rw [q3]
    refine List.ext_getElem? fun i => ?_
    rw [List.getElem?_map, List.getElem?_take]
    by_cases hi : i < nPol * nCh
    · rw [if_pos hi, List.getElem?_range hi, Option.map_some, q4 i hi, buf_elems a (by omega)]
    · rw [if_neg hi, List.getElem?_eq_none (by simpa using hi), Option.map_none]
  refine ⟨b', e, h'.lt r _ hr, ?_, hv⟩
  have := (put_row (nPol * nCh) a 0).1 hl
  unfold putValues at this
  rw [if_pos rfl] at this
  obtain ⟨vals, e1, e2⟩ := Option.map_eq_some_iff.1 this
  rw [e1, hv]
  exact congrArg some (Option.some.inj (Prod.mk.inj e2).2)

/-- A strided array put into row one of a new block. -/
example (g : Nat → DataRow Nat) : ∃ b', TimeBlock.setData 0 3 1 ⟨0, g⟩ 1 0 1 (strided.buf strided.getStorage) = some b' ∧
    rowValues b' 1 = [10, 30, 50] := by
  obtain ⟨b', h1, -, -, h4⟩ := load_setData 0 3 1 (m := fun _ => none) (b := ⟨0, g⟩)
    ⟨fun _ _ hx => by simp at hx, Or.inl rfl, fun _ _ _ _ hx => by simp at hx, fun _ hr => by simp at hr⟩ strided
    (Nat.le_refl 3) 1 0 1
  exact ⟨b', h1, h4⟩

/-- **C152**: after any operations on the block buffer, reading a row into an array of any layout gives the elements of the array that
was last put into that row, if no reset came after it. -/
theorem array_row (zero : α) (nPol nCh : Nat) (g : Nat → DataRow α) (ops : List (TimeBlock.Op α))
    (hv : ∀ op ∈ ops, op.Valid (nPol * nCh)) {a c : Arr α} (ha : a.pos.length = nPol * nCh) (hc : c.pos.length = nPol * nCh)
    (hn : c.pos.Nodup) {r a1 a2 : Nat}
    (hr : TimeBlock.specAll (fun _ => none) ops r = some (a1, a2, (a.buf a.getStorage).get)) (copies : Nat) :
    ∃ b c', TimeBlock.runAll zero nPol nCh ⟨0, g⟩ ops = some b ∧ r < b.len ∧
      getValues zero c copies (.row (rowValues b r)) = some ⟨c', copies, true⟩ ∧ c'.pos = c.pos ∧ c'.elems = a.elems ∧
      ∀ p, p ∉ c.pos → c'.mem p = c.mem p := by
  obtain ⟨b, e, h⟩ := TimeBlock.runAll_refines zero nPol nCh ops (m := fun _ => none) (b := ⟨0, g⟩)
    ⟨fun _ _ hx => by simp at hx, Or.inl rfl, fun _ _ _ _ hx => by simp at hx, fun _ hr => by simp at hr⟩ hv
  obtain ⟨-, -, q3, q4⟩ := h.row r _ _ _ hr
  have hval : rowValues b r = a.elems := by
    unfold rowValues
    rw [q3]
    refine List.ext_getElem? fun i => ?_
    rw [List.getElem?_map]
    by_cases hi : i < nPol * nCh
    · rw [List.getElem?_range hi, Option.map_some, q4 i hi, buf_elems a (by omega)]
    · rw [List.getElem?_eq_none (by simpa using hi), List.getElem?_eq_none (by rw [a.elems_length]; omega), Option.map_none]
  have hlen : (rowValues b r).length = c.pos.length := by rw [hval, a.elems_length, ha, hc]
  obtain ⟨c', h1, h2, h3, h4⟩ := (get_row zero hn copies (rowValues b r)).1 hlen.le
  refine ⟨b, c', e, h.lt r _ hr, h1, h2, ?_, h4⟩
  rw [h3, hlen, List.drop_of_length_le c.elems_length.le, List.append_nil, hval]

/-- A row put from a strided array is read into a contiguous one, with another row put in between. -/
example (g : Nat → DataRow Nat) : ∃ b c', TimeBlock.runAll 0 3 1 ⟨0, g⟩
      [.set 2 0 1 (strided.buf strided.getStorage), .set 0 1 1 ⟨3, fun _ => 6⟩] = some b ∧
    getValues 0 ⟨fun p => p, [4, 5, 6]⟩ 0 (.row (rowValues b 2)) = some ⟨c', 0, true⟩ ∧ c'.elems = [10, 30, 50] := by
  obtain ⟨b, c', h1, -, h3, -, h5, -⟩ := array_row 0 3 1 g [.set 2 0 1 (strided.buf strided.getStorage), .set 0 1 1 ⟨3, fun _ => 6⟩]
    (fun op hop => by
      rcases List.mem_cons.1 hop with rfl | hop
      · exact Nat.le_refl 3
      · obtain rfl := List.mem_singleton.1 hop
        exact Nat.le_refl 3)
    (a := strided) (c := ⟨fun p => p, [4, 5, 6]⟩) rfl rfl (by decide) (r := 2) (a1 := 0) (a2 := 1) rfl 0
  exact ⟨b, c', h1, h3, h5⟩

end Dysco.Arrays
