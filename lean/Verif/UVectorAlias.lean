import Verif.UVectorProps

/-!
# `UVector`: copy assignment (C59), references to own elements (C60), comparison

`a = b` does not set the size of `a` when `b` fits in the storage of `a`: the general property "`a` equals `b`
afterwards" is false. The theorems give the exact result, the cases in which it is right, and a witness.
-/

namespace Dysco.UVec

variable {α : Type}

/-! ## C59 -/

/-- Copying from another vector into a vector with enough storage. -/
theorem copyAssign_in_place {h : Heap α} {v w : Vec} {l m : List (Option α)} (hf : Fresh h) (ho : Own h v)
    (how : Own h w) (hr : Rep h v l) (hrw : Rep h w m) (hd : ∀ p, v.ptr = some p → w.ptr ≠ some p)
    (hc : m.length ≤ v.cap) : ∃ s, copyAssign w ⟨h, v⟩ = .ok () s ∧ Upd h v s.heap s.v ∧
      Rep s.heap s.v (m.take l.length ++ l.drop m.length) := by
  have h0 := ho.1
  have h1 := hr.1
  have h2 := hrw.1
  have hc' : ¬ v.cap < w.size := by omega
  rcases ho.2 with ⟨hn, hc0⟩ | ⟨p, b, hp, hm, hbl⟩
  · have hm0 : m = [] := List.length_eq_zero_iff.1 (by omega)
    have hw0 : w.size = 0 := by rw [h2, hm0]; rfl
    refine ⟨⟨h, v⟩, ?_, upd_none hf ho, by subst hm0; simpa using hr⟩
    simp only [copyAssign, bind_apply, self_apply, ite_apply', hw0, copyRange_zero]
    simp
  · rcases how.2 with ⟨hnw, hcw0⟩ | ⟨q, c, hq, hmq, hcl⟩
    · have hw0 : w.size = 0 := by have := how.1; omega
      have hm0 : m = [] := List.length_eq_zero_iff.1 (by omega)
      refine ⟨⟨h, v⟩, ?_, upd_none hf ho, by subst hm0; simpa using hr⟩
      simp only [copyAssign, bind_apply, self_apply, ite_apply', hw0, copyRange_zero]
      simp
    · have hqp : q ≠ p := by rintro rfl; exact hd q hp hq
      have how1 := how.1
      refine ⟨⟨h.put p (some (over b c 0 0 w.size)), v⟩, ?_, ?_, ?_, ?_⟩
      · simp only [copyAssign, bind_apply, self_apply, ite_apply', if_neg hc', hp, hq]
        rw [copyRange_ne (b := b) (c := c) hqp (by simp only [hmq]) (by simp only [hm]) (by omega) (by omega)]
      · exact upd_then_put (upd_none hf ho) hp hm rfl
      · simp only [List.length_append, List.length_take, List.length_drop]; omega
      · intro k x e
        rw [blockOf_some hp (put_same _ _ _)]
        simp only [over]
        rw [List.getElem?_append, List.length_take] at e
        split at e
        · next h3 =>
          rw [List.getElem?_take, if_pos (by omega)] at e
          have := hrw.2 k x e
          rw [blockOf_some hq hmq] at this
          rw [if_pos (by omega)]; simpa using this
        · next h3 =>
          rw [List.getElem?_drop] at e
          have hk : m.length + (k - min l.length m.length) < l.length := by
            by_contra hcc; rw [List.getElem?_eq_none (by omega)] at e; simp at e
          have e3 : m.length + (k - min l.length m.length) = k := by omega
          rw [e3] at e
          have := hr.2 k x e
          rw [blockOf_some hp hm] at this
          rw [if_neg (by omega)]; exact this

/-- Copying from another vector into new storage. -/
theorem copyAssign_realloc {h : Heap α} {v w : Vec} {m : List (Option α)} (hf : Fresh h) (ho : Own h v)
    (how : Own h w) (hrw : Rep h w m) (hd : ∀ p, v.ptr = some p → w.ptr ≠ some p) (hc : v.cap < m.length) :
    Does (copyAssign w) h v m := by
  have h2 := hrw.1
  have hc' : v.cap < w.size := by omega
  rcases allocate_or w.size h v with ⟨e, ef⟩ | e
  · right
    exact ⟨⟨h.skip, v⟩, by simp only [copyAssign, bind_apply, self_apply, ite_apply', if_pos hc', e],
      same_skip _ ef⟩
  · left
    rcases how.2 with ⟨hnw, hcw0⟩ | ⟨q, c, hq, hmq, hcl⟩
    · have := how.1; omega
    have hqn : q ≠ h.next := by rintro rfl; exact own_ne hf how hq
    have how1 := how.1
    have hmove : (h.move v (blank w.size)).mem q = some c := by
      unfold Heap.move Heap.drop
      rcases ep : v.ptr with _ | p
      · simp only; rw [alloc_ne _ _ hqn, hmq]
      · have : q ≠ p := by rintro rfl; exact hd q ep hq
        simp only; rw [put_ne _ _ this, alloc_ne _ _ hqn, hmq]
    refine ⟨⟨h.move v (over (blank w.size) c 0 0 w.size), ⟨some h.next, w.size, w.size⟩⟩, ?_, ?_, ?_⟩
    · simp only [copyAssign, bind_apply, self_apply, ite_apply', if_pos hc', e]
      rw [dealloc_new hf ho]
      simp only [setSelf_apply, hq]
      rw [copyRange_ne (b := blank w.size) (c := c) hqn hmove (by simp only [move_mem hf ho]) (by omega)
        (by simp only [blank]; omega)]
      simp only [move_put hf ho]
    · exact upd_move hf ho (b := over (blank w.size) c 0 0 w.size) (by simp only [over, blank]; omega)
    · refine rep_move hf ho h2 ?_
      intro k x e2
      have hk : k < m.length := by
        by_contra hcc; rw [List.getElem?_eq_none (by omega)] at e2; simp at e2
      simp only [over]
      rw [if_pos (by omega)]
      have := hrw.2 k x e2
      rw [blockOf_some hq hmq] at this
      simpa using this

/-- **C59, what copy assignment does**: with `la`, `lb` the contents of `a`, `b`, the contents of `a` become `lb`
when `b` does not fit in the storage of `a` (unless the allocation fails). Otherwise the size of `a` stays, and
only the elements that both have are copied, plus some beyond the end that are not visible. -/
theorem copy_assign {P : Pool α} {S : SPool α} {i j : Nat} {a : Vec} {la lb : List (Option α)} (hs : Sim P S)
    (hij : i ≠ j) (ha : P.vecs i = some a) (hla : S i = some la) (hlb : S j = some lb) :
    Done P S (setAt S i (some (if a.cap < lb.length then lb else lb.take la.length ++ la.drop lb.length)))
      (Pool.copyAssign i j P) := by
  rcases hw : P.vecs j with _ | b
  · rw [(hs.none_iff j).1 hw] at hlb; simp at hlb
  obtain ⟨hoa, hra⟩ := hs.objs i a la ha hla
  obtain ⟨hob, hrb⟩ := hs.objs j b lb hw hlb
  have hd : ∀ p, a.ptr = some p → b.ptr ≠ some p := fun p hp => hs.disj i j a b p hij ha hw hp
  by_cases hc : a.cap < lb.length
  · rw [if_pos hc]
    rcases copyAssign_realloc hs.fresh hoa hob hrb hd hc with ⟨s, e, hu, hr'⟩ | ⟨s, e, hsm⟩
    · exact .inl ⟨⟨s.heap, setAt P.vecs i (some s.v)⟩, by simp only [Pool.copyAssign, hw, Pool.on, ha, e],
        sim_upd hs ha hu hr', hu.fails⟩
    · refine .inr ⟨⟨s.heap, P.vecs⟩, ?_, sim_same hs hsm, hsm.fails, hsm.failed⟩
      simp only [Pool.copyAssign, hw, Pool.on, ha, e, hsm.v, setAt_self P.vecs ha]
  · rw [if_neg hc]
    obtain ⟨s, e, hu, hr'⟩ := copyAssign_in_place hs.fresh hoa hob hra hrb hd (Nat.le_of_not_lt hc)
    exact .inl ⟨⟨s.heap, setAt P.vecs i (some s.v)⟩, by simp only [Pool.copyAssign, hw, Pool.on, ha, e],
      sim_upd hs ha hu hr', hu.fails⟩

/-- **C59** (partial: the property "after `a = b`, `a` equals `b`" only for these sizes): when the size of `b` exceeds
the capacity of `a` or equals the size of `a`, copy assignment gives `a` the contents of `b`. -/
theorem copy_assign_equal_partial {P : Pool α} {S : SPool α} {i j : Nat} {a : Vec} {la lb : List (Option α)}
    (hs : Sim P S) (hij : i ≠ j) (ha : P.vecs i = some a) (hla : S i = some la) (hlb : S j = some lb)
    (hsz : a.cap < lb.length ∨ lb.length = la.length) :
    Done P S (setAt S i (some lb)) (Pool.copyAssign i j P) := by
  have := copy_assign hs hij ha hla hlb
  have e : (if a.cap < lb.length then lb else lb.take la.length ++ la.drop lb.length) = lb := by
    split
    · rfl
    · rcases hsz with h | h
      · contradiction
      · rw [← h, List.take_length, h, List.drop_length, List.append_nil]
  rwa [e] at this

/-- **C59, the sizes for which it is right are exactly these**: in all other cases the size of `a` is not that of `b`
afterwards. -/
theorem copy_assign_size_wrong {P : Pool α} {S : SPool α} {i j : Nat} {a : Vec} {la lb : List (Option α)}
    (hs : Sim P S) (hij : i ≠ j) (ha : P.vecs i = some a) (hla : S i = some la) (hlb : S j = some lb)
    (hsz : ¬ (a.cap < lb.length ∨ lb.length = la.length)) :
    ∃ Q a', Pool.copyAssign i j P = .ok () Q ∧ Q.vecs i = some a' ∧ a'.size = a.size ∧ a'.size ≠ lb.length := by
  obtain ⟨hoa, hra⟩ := hs.objs i a la ha hla
  rcases hw : P.vecs j with _ | b
  · rw [(hs.none_iff j).1 hw] at hlb; simp at hlb
  obtain ⟨hob, hrb⟩ := hs.objs j b lb hw hlb
  have hd : ∀ p, a.ptr = some p → b.ptr ≠ some p := fun p hp => hs.disj i j a b p hij ha hw hp
  have hc : lb.length ≤ a.cap := by omega
  obtain ⟨s, e, hu, hr'⟩ := copyAssign_in_place hs.fresh hoa hob hra hrb hd hc
  refine ⟨⟨s.heap, setAt P.vecs i (some s.v)⟩, s.v, by simp only [Pool.copyAssign, hw, Pool.on, ha, e],
    setAt_same _ _ _, ?_, ?_⟩
  · rw [hr'.1, hra.1]
    simp only [List.length_append, List.length_take, List.length_drop]; omega
  · rw [hr'.1]
    simp only [List.length_append, List.length_take, List.length_drop]; omega

/-- Assigning a vector to itself changes nothing. -/
theorem copy_assign_self {P : Pool α} {S : SPool α} {i : Nat} {l : List (Option α)} (hs : Sim P S) (hl : S i = some l) :
    Done P S S (Pool.copyAssign i i P) := by
  rcases hw : P.vecs i with _ | a
  · rw [(hs.none_iff i).1 hw] at hl; simp at hl
  obtain ⟨ho, hr⟩ := hs.objs i a l hw hl
  have h0 := ho.1
  left
  have hc : ¬ a.cap < a.size := by omega
  rcases ho.2 with ⟨hn, hc0⟩ | ⟨p, b, hp, hm, hbl⟩
  · have hz : a.size = 0 := by omega
    refine ⟨P, ?_, hs, rfl⟩
    simp only [Pool.copyAssign, hw, Pool.on, copyAssign, bind_apply, self_apply, ite_apply',
      hz, copyRange_zero]
    simp only [Nat.not_lt_zero, if_false, setAt_self P.vecs hw]
  · have ho' : over b b 0 0 a.size = b := by
      cases b; simp only [over, Buf.mk.injEq, true_and]; funext x; split
      · simp
      · rfl
    refine ⟨P, ?_, hs, rfl⟩
    simp only [Pool.copyAssign, hw, Pool.on, copyAssign, bind_apply, self_apply, ite_apply', if_neg hc, hp]
    rw [copyRange_down (b := b) (Nat.le_refl 0) (by simp only [hm]) (by omega), ho']
    simp only [put_mem P.heap p hm, setAt_self P.vecs hw]

/-- The state after constructing `{1, 2, 3}` and `{9}`. -/
def twoVecs : Pool Nat :=
  ⟨⟨2, fun q => if q = 0 then some ⟨3, fun k => some (k + 1)⟩ else if q = 1 then some ⟨1, fun _ => some 9⟩ else none,
    fun _ _ => false⟩,
   fun i => if i = 0 then some ⟨some 0, 3, 3⟩ else if i = 1 then some ⟨some 1, 1, 1⟩ else none⟩

/-- Visible elements of vector `i`. -/
def contents (P : Pool α) (i : Nat) : Option (List (Option α)) :=
  (P.vecs i).map fun v => (List.range v.size).map (blockOf P.heap v).get

/-- **C59, witness**: `{1, 2, 3} = {9}` gives `{9, 2, 3}`. -/
theorem copy_assign_witness :
    contents twoVecs 0 = some [some 1, some 2, some 3] ∧ contents twoVecs 1 = some [some 9] ∧
    (match Pool.copyAssign 0 1 twoVecs with
      | .ok _ Q => contents Q 0
      | _ => none) = some [some 9, some 2, some 3] := by
  decide

/-- **C59, the general claim is false.** -/
theorem copy_assign_not_equal : ¬ ∀ (P : Pool Nat) (S : SPool Nat) (i j : Nat) (lb : List (Option Nat)),
    Sim P S → i ≠ j → (S i).isSome → S j = some lb → Done P S (setAt S i (some lb)) (Pool.copyAssign i j P) := by
  intro H
  have hs : Sim twoVecs (fun i => if i = 0 then some [some 1, some 2, some 3] else if i = 1 then some [some 9] else none) := by
    refine ⟨?_, ?_, ?_, ?_, ?_⟩
    · intro q hq
      have : 2 ≤ q := hq
      simp only [twoVecs]
      rw [if_neg (by omega), if_neg (by omega)]
    · intro i; simp only [twoVecs]; split <;> [simp; (split <;> simp)]
    · intro i v l hv hl
      simp only [twoVecs] at hv hl
      by_cases h0 : i = 0
      · subst h0
        simp only [if_true, Option.some.injEq] at hv hl
        subst hv; subst hl
        refine ⟨⟨Nat.le_refl _, .inr ⟨0, _, rfl, rfl, rfl⟩⟩, rfl, ?_⟩
        intro k x e
        match k with
        | 0 => exact Option.some.inj e
        | 1 => exact Option.some.inj e
        | 2 => exact Option.some.inj e
        | k + 3 => simp at e
      · by_cases h1 : i = 1
        · subst h1
          simp only [if_neg h0, if_true, Option.some.injEq] at hv hl
          subst hv; subst hl
          refine ⟨⟨Nat.le_refl _, .inr ⟨1, _, rfl, rfl, rfl⟩⟩, rfl, ?_⟩
          intro k x e
          match k with
          | 0 => exact Option.some.inj e
          | k + 1 => simp at e
        · simp only [if_neg h0, if_neg h1] at hv; simp at hv
    · intro i j v w p hij hv hw hp
      simp only [twoVecs] at hv hw
      by_cases h0 : i = 0
      · subst h0
        simp only [if_true, Option.some.injEq] at hv
        subst hv
        simp only [Option.some.injEq] at hp
        subst hp
        rw [if_neg (Ne.symm hij)] at hw
        split at hw
        · simp only [Option.some.injEq] at hw; subst hw; simp
        · simp at hw
      · rw [if_neg h0] at hv
        split at hv
        · next h1 =>
          simp only [Option.some.injEq] at hv
          subst hv
          simp only [Option.some.injEq] at hp
          subst hp
          by_cases hj : j = 0
          · subst hj; simp only [if_true, Option.some.injEq] at hw; subst hw; simp
          · rw [if_neg hj, if_neg (by omega)] at hw; simp at hw
        · simp at hv
    · intro p hp
      simp only [twoVecs] at hp
      by_cases h0 : p = 0
      · exact ⟨0, _, rfl, by rw [h0]⟩
      · by_cases h1 : p = 1
        · exact ⟨1, _, rfl, by rw [h1]⟩
        · rw [if_neg h0, if_neg h1] at hp; simp at hp
  have h := H _ _ 0 1 [some 9] hs (by decide) rfl rfl
  obtain ⟨Q, a', e, hQ, h1, h2⟩ := copy_assign_size_wrong (i := 0) (j := 1) (a := ⟨some 0, 3, 3⟩)
    (la := [some 1, some 2, some 3]) (lb := [some 9]) hs (by decide) rfl rfl rfl (by decide)
  rcases h with ⟨Q', e', hQ', _⟩ | ⟨Q', e', _⟩
  · rw [e] at e'
    simp only [Res.ok.injEq, true_and] at e'
    subst e'
    have := (hQ'.objs 0 a' [some 9] hQ (setAt_same _ _ _)).2.1
    exact h2 this
  · rw [e] at e'; simp at e'

/-! ## C60 -/

variable {h : Heap α} {v : Vec} {l : List (Option α)}

/-- A reference into released storage. -/
theorem load_moved {p k : Nat} (hf : Fresh h) (ho : Own h v) (hp : v.ptr = some p) (b : Buf (Option α)) (w : Vec) :
    load (some p) k ⟨h.move v b, w⟩ = .ub := by
  have hne : p ≠ h.next := by rintro rfl; exact own_ne hf ho hp
  have : (h.move v b).mem p = none := by
    simp only [Heap.move, Heap.drop, hp, put_same]
  simp [load, this]

/-- **C60**: pushing an element of the vector itself, without reallocation, appends that element's value. -/
theorem push_own {p k : Nat} {x : α} (hf : Fresh h) (ho : Own h v) (hr : Rep h v l) (hp : v.ptr = some p)
    (hx : l[k]? = some (some x)) (hc : v.size < v.cap) :
    ∃ s, pushBack (.cell p k) ⟨h, v⟩ = .ok () s ∧ Upd h v s.heap s.v ∧ Rep s.heap s.v (l ++ [some x]) := by
  have hk : k < l.length := by by_contra hcc; rw [List.getElem?_eq_none (by omega)] at hx; simp at hx
  have h1 := hr.1
  have heq : pushBack (.cell p k) ⟨h, v⟩ = pushBack (.val x) ⟨h, v⟩ := by
    obtain ⟨p', b, hp', hm, hbl⟩ := own_size_lt (k := k) ho (by omega)
    rw [hp] at hp'; simp only [Option.some.injEq] at hp'; subst hp'
    have hb := hr.2 k x hx
    rw [blockOf_some hp hm] at hb
    have hne : ¬ v.size = v.cap := by omega
    simp only [pushBack, bind_apply, self_apply, ite_apply', if_neg hne, deref, ret_apply]
    rw [load_some (b := b) (by simp only [hm]) (by omega), hb]
  rcases pushBack_does x hf ho hr with ⟨s, e, h2, h3⟩ | ⟨s, e, _⟩
  · exact ⟨s, by rw [heq, e], h2, h3⟩
  · -- no allocation takes place
    exfalso
    have hne : ¬ v.size = v.cap := by omega
    obtain ⟨p', b, hp', hm, hbl⟩ := own_size_lt (k := v.size) ho hc
    simp only [pushBack, bind_apply, self_apply, ite_apply', if_neg hne, deref, ret_apply, hp'] at e
    rw [store_some (b := b) (by simp only [hm]) (by omega)] at e
    simp at e

/-- **C60**: when the storage is full (and the allocation succeeds), pushing an own element reads released storage. -/
theorem push_own_full {p k : Nat} (hf : Fresh h) (ho : Own h v) (hp : v.ptr = some p) (hc : v.size = v.cap)
    (ha : h.fails h.next (enlargeSize v 1) = false) : pushBack (.cell p k) ⟨h, v⟩ = .ub := by
  rcases enlarge_or (n := enlargeSize v 1) hf ho (by unfold enlargeSize; omega) with ⟨_, ef⟩ | e
  · rw [ha] at ef; simp at ef
  · simp only [pushBack, bind_apply, self_apply, ite_apply', if_pos hc, e, deref]
    rw [load_moved hf ho hp]

/-- **C60**: inserting an element of the vector itself, without reallocation. When the referenced element is not
after the position, its value is inserted; otherwise that of its predecessor. -/
theorem insert_own {p k pos : Nat} {x : α} (hf : Fresh h) (ho : Own h v) (hr : Rep h v l) (hp : v.ptr = some p)
    (hpos : pos ≤ l.length) (hk : k < l.length) (hx : l[if k ≤ pos then k else k - 1]? = some (some x))
    (hc : v.size < v.cap) :
    ∃ s, insert pos (.cell p k) ⟨h, v⟩ = .ok () s ∧ Upd h v s.heap s.v ∧
      Rep s.heap s.v (l.take pos ++ [some x] ++ l.drop pos) := by
  have h1 := hr.1
  obtain ⟨p', b, hp', hm, hbl⟩ := own_size_lt (k := v.size) ho hc
  rw [hp] at hp'; simp only [Option.some.injEq] at hp'; subst hp'
  have hne : ¬ v.size = v.cap := by omega
  have hb := hr.2 _ x hx
  rw [blockOf_some hp hm] at hb
  have heq : insert pos (.cell p k) ⟨h, v⟩ = insert pos (.val x) ⟨h, v⟩ := by
    simp only [insert, bind_apply, self_apply, ite_apply', if_neg hne, hp, deref, ret_apply]
    rw [moveBackward_up (b := b) (by omega) (by simp only [hm]) (by omega)]
    simp only [setSelf_apply]
    rw [load_some (b := over b b pos (pos + 1) (v.size - pos)) (by simp only [put_same]) (by simp only [over]; omega)]
    have : (over b b pos (pos + 1) (v.size - pos)).get k = some x := by
      simp only [over]
      split
      · next h2 =>
        rw [if_neg (by omega)] at hb
        rw [← hb]; congr 1; omega
      · next h2 =>
        rw [if_pos (by omega)] at hb
        exact hb
    rw [this]
  rcases insert_does pos x hf ho hr hpos with ⟨s, e, h2, h3⟩ | ⟨s, e, _⟩
  · exact ⟨s, by rw [heq, e], h2, h3⟩
  · exfalso
    simp only [insert, bind_apply, self_apply, ite_apply', if_neg hne, hp, deref, ret_apply] at e
    rw [moveBackward_up (b := b) (by omega) (by simp only [hm]) (by omega)] at e
    simp only [setSelf_apply] at e
    rw [store_some (b := over b b pos (pos + 1) (v.size - pos)) (by simp only [put_same])
      (by simp only [over]; omega)] at e
    simp at e

/-- **C60**: when the storage is full, inserting an own element reads released storage. -/
theorem insert_own_full {p k pos : Nat} (hf : Fresh h) (ho : Own h v) (hp : v.ptr = some p) (hpos : pos ≤ v.size)
    (hc : v.size = v.cap) (ha : h.fails h.next (enlargeSize v 1) = false) :
    insert pos (.cell p k) ⟨h, v⟩ = .ub := by
  rcases enlargeForInsert_or (c := enlargeSize v 1) (pos := pos) (n := 1) hf ho hpos
    (by unfold enlargeSize; omega) with ⟨_, ef⟩ | e
  · rw [ha] at ef; simp at ef
  · simp only [insert, bind_apply, self_apply, ite_apply', if_pos hc, e, deref]
    rw [load_moved hf ho hp]

/-- The same holds for `resize(n, v[k])` beyond the capacity. -/
theorem resize_own_full {p k n : Nat} (hf : Fresh h) (ho : Own h v) (hp : v.ptr = some p) (hc : v.cap < n)
    (ha : h.fails h.next n = false) : resizeVal n (.cell p k) ⟨h, v⟩ = .ub := by
  have h0 := ho.1
  rcases allocate_or n h v with ⟨_, ef⟩ | e
  · rw [ha] at ef; simp at ef
  · simp only [resizeVal, bind_apply, self_apply, ite_apply', if_pos hc, e]
    rw [copy_new hf ho (by omega) (by simp only [blank]; omega)]
    simp only
    rw [dealloc_new hf ho]
    simp only [setSelf_apply]
    rw [if_pos (by omega)]
    obtain ⟨m, hm⟩ : ∃ m, n - v.size = m + 1 := ⟨n - v.size - 1, by omega⟩
    rw [hm, List.replicate_succ]
    simp only [writeAll, bind_apply, deref]
    rw [load_moved hf ho hp]

/-- The same holds for `assign(n, v[k])` beyond the capacity. -/
theorem assign_own_full {p k n : Nat} (hf : Fresh h) (ho : Own h v) (hp : v.ptr = some p) (hc : v.cap < n)
    (ha : h.fails h.next n = false) : assign (List.replicate n (.cell p k)) ⟨h, v⟩ = .ub := by
  rcases allocate_or n h v with ⟨_, ef⟩ | e
  · rw [ha] at ef; simp at ef
  · simp only [assign, bind_apply, self_apply, ite_apply', List.length_replicate, if_pos hc, e]
    rw [dealloc_new hf ho]
    simp only [setSelf_apply]
    obtain ⟨m, hm⟩ : ∃ m, n = m + 1 := ⟨n - 1, by omega⟩
    rw [hm, List.replicate_succ]
    simp only [writeAll, bind_apply, deref]
    rw [load_moved hf ho (v := v) hp]

/-- A vector with room for one more element: `{1, 2, 3}` with capacity 4. -/
def roomy : St Nat := ⟨⟨1, fun q => if q = 0 then some ⟨4, fun k => if k < 3 then some (k + 1) else none⟩ else none,
  fun _ _ => false⟩, ⟨some 0, 3, 4⟩⟩

/-- **C60, witness**: inserting the last element of `{1, 2, 3}` at the front inserts 2 instead of 3. -/
theorem insert_own_witness :
    (match insert 0 (.cell 0 2) roomy with
      | .ok _ s => some ((List.range s.v.size).map (blockOf s.heap s.v).get)
      | _ => none) = some [some 2, some 1, some 2, some 3] := by
  decide

/-- The hypotheses of `push_own` and `insert_own` hold for `roomy`. -/
example : Own roomy.heap roomy.v ∧ Rep roomy.heap roomy.v [some 1, some 2, some 3] ∧ roomy.v.size < roomy.v.cap ∧
    Fresh roomy.heap := by
  refine ⟨⟨by decide, .inr ⟨0, _, rfl, rfl, rfl⟩⟩, ⟨rfl, ?_⟩, by decide, ?_⟩
  · intro k x e
    match k with
    | 0 => exact Option.some.inj e
    | 1 => exact Option.some.inj e
    | 2 => exact Option.some.inj e
    | k + 3 => simp at e
  · intro q hq
    have : 1 ≤ q := hq
    simp only [roomy]; rw [if_neg (by omega)]

/-- **C60, witness**: pushing an own element onto a full vector is undefined. -/
example : pushBack (.cell 0 0) (⟨twoVecs.heap, ⟨some 0, 3, 3⟩⟩ : St Nat) = .ub :=
  push_own_full (v := ⟨some 0, 3, 3⟩) (by
    intro q hq
    have : 2 ≤ q := hq
    simp only [twoVecs]
    rw [if_neg (by omega), if_neg (by omega)])
    ⟨Nat.le_refl _, .inr ⟨0, _, rfl, rfl, rfl⟩⟩ rfl rfl rfl

end Dysco.UVec
