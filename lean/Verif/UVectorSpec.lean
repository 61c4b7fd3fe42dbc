import Verif.UVectorLemmas

/-!
# Each `UVector` method against a list

`Own`: the vector owns an allocated block of `cap` cells (or no block). `Rep`: the vector shows the list `l`, in
which `none` stands for an element that has no specified value. `Upd`: what a method may change in memory.
-/

namespace Dysco.UVec

variable {α : Type}

/-- The vector owns its storage. -/
def Own (h : Heap α) (v : Vec) : Prop :=
  v.size ≤ v.cap ∧
    ((v.ptr = none ∧ v.cap = 0) ∨ ∃ p b, v.ptr = some p ∧ h.mem p = some b ∧ b.len = v.cap)

/-- Block numbers that have not been given out are not in use. -/
def Fresh (h : Heap α) : Prop := ∀ q, h.next ≤ q → h.mem q = none

/-- The block of a vector. -/
def blockOf (h : Heap α) (v : Vec) : Buf (Option α) := (v.ptr.bind h.mem).getD (blank 0)

/-- The vector shows the elements `l`; `none` in `l` is an unspecified element. -/
def Rep (h : Heap α) (v : Vec) (l : List (Option α)) : Prop :=
  v.size = l.length ∧ ∀ k x, l[k]? = some (some x) → (blockOf h v).get k = some x

/-- Effect on memory of a method on vector `v`: the vector keeps owning its storage, other blocks are unchanged,
and when the storage moved, the old block is released and the new one was not in use. -/
structure Upd (h : Heap α) (v : Vec) (h' : Heap α) (v' : Vec) : Prop where
  own : Own h' v'
  fresh : Fresh h'
  frame : ∀ q, v.ptr ≠ some q → v'.ptr ≠ some q → h'.mem q = h.mem q
  moved : v'.ptr ≠ v.ptr →
    (∀ p, v.ptr = some p → h'.mem p = none) ∧ (∀ p, v'.ptr = some p → h.mem p = none)
  fails : h'.fails = h.fails

/-- A method that throws does so because an allocation failed, and has changed nothing (except the allocation counter of the model). -/
structure Same (h : Heap α) (v : Vec) (s : St α) : Prop where
  v : s.v = v
  mem : s.heap.mem = h.mem
  next : h.next ≤ s.heap.next
  fails : s.heap.fails = h.fails
  failed : ∃ n, h.fails h.next n = true

/-- The method `m` turns `l` into `l'`, or throws and changes nothing. -/
def Does (m : M α Unit) (h : Heap α) (v : Vec) (l' : List (Option α)) : Prop :=
  (∃ s, m ⟨h, v⟩ = .ok () s ∧ Upd h v s.heap s.v ∧ Rep s.heap s.v l') ∨
  (∃ s, m ⟨h, v⟩ = .throw s ∧ Same h v s)

/-! ## Memory states reached by the methods -/

/-- Heap after allocating a block that now has contents `b`. -/
def Heap.alloc (h : Heap α) (b : Buf (Option α)) : Heap α :=
  { (h.put h.next (some b)) with next := h.next + 1 }

/-- Heap after an allocation that failed. -/
def Heap.skip (h : Heap α) : Heap α := { h with next := h.next + 1 }

/-- Heap after releasing `p`. -/
def Heap.drop (h : Heap α) : Option Nat → Heap α
  | none => h
  | some p => h.put p none

/-- Heap after moving to a new block with contents `b`. -/
def Heap.move (h : Heap α) (v : Vec) (b : Buf (Option α)) : Heap α := (h.alloc b).drop v.ptr

theorem allocate_or (n : Nat) (h : Heap α) (v : Vec) :
    (allocate n ⟨h, v⟩ = .throw ⟨h.skip, v⟩ ∧ h.fails h.next n = true) ∨
    allocate n ⟨h, v⟩ = .ok h.next ⟨h.alloc (blank n), v⟩ := allocate_cases n ⟨h, v⟩

theorem alloc_put (h : Heap α) (b : Buf (Option α)) (c : Buf (Option α)) :
    (h.alloc b).put h.next (some c) = h.alloc c := by
  simp only [Heap.alloc, Heap.put, Heap.mk.injEq, true_and, and_true]
  funext q; split <;> rfl

theorem alloc_mem (h : Heap α) (b : Buf (Option α)) : (h.alloc b).mem h.next = some b := by
  simp [Heap.alloc, Heap.put]

theorem alloc_ne (h : Heap α) (b : Buf (Option α)) {q : Nat} (hq : q ≠ h.next) : (h.alloc b).mem q = h.mem q := by
  simp [Heap.alloc, Heap.put, hq]

theorem own_ne {h : Heap α} {v : Vec} (hf : Fresh h) (ho : Own h v) : v.ptr ≠ some h.next := by
  intro e
  rcases ho.2 with ⟨e', _⟩ | ⟨p, b, hp, hm, _⟩
  · rw [e'] at e; simp at e
  · rw [hp] at e; simp only [Option.some.injEq] at e
    rw [e, hf h.next (Nat.le_refl _)] at hm; simp at hm

theorem own_alloc {h : Heap α} {v : Vec} (hf : Fresh h) (ho : Own h v) (b : Buf (Option α)) :
    Own (h.alloc b) v := by
  have hn := own_ne hf ho
  refine ⟨ho.1, ?_⟩
  rcases ho.2 with e | ⟨p, c, hp, hm, hl⟩
  · exact .inl e
  · refine .inr ⟨p, c, hp, ?_, hl⟩
    rw [alloc_ne, hm]
    rintro rfl; exact hn hp

theorem blockOf_some {h : Heap α} {v : Vec} {p : Nat} {b : Buf (Option α)} (hp : v.ptr = some p)
    (hm : h.mem p = some b) : blockOf h v = b := by
  simp [blockOf, hp, hm]

theorem blockOf_len {h : Heap α} {v : Vec} (ho : Own h v) : (blockOf h v).len = v.cap := by
  rcases ho.2 with ⟨e, hc⟩ | ⟨p, c, hp, hm, hl⟩
  · simp [blockOf, e, hc, blank]
  · rw [blockOf_some hp hm, hl]

theorem blockOf_alloc {h : Heap α} {v : Vec} (hf : Fresh h) (ho : Own h v) (b : Buf (Option α)) :
    blockOf (h.alloc b) v = blockOf h v := by
  have hn := own_ne hf ho
  rcases ho.2 with ⟨e, hc⟩ | ⟨p, c, hp, hm, hl⟩
  · simp [blockOf, e]
  · rw [blockOf_some hp hm, blockOf_some hp]
    rw [alloc_ne, hm]
    rintro rfl; exact hn hp

theorem over_zero (b c : Buf (Option α)) (i j : Nat) : over b c i j 0 = b := by
  cases b; simp only [over, Buf.mk.injEq, true_and]; funext x; rw [if_neg (by omega)]

/-- Copy from the vector into the newly allocated block. -/
theorem copy_new {h : Heap α} {v w : Vec} {b : Buf (Option α)} {i j n : Nat} (hf : Fresh h) (ho : Own h v)
    (hi : i + n ≤ v.cap) (hj : j + n ≤ b.len) :
    copyRange v.ptr i (some h.next) j n ⟨h.alloc b, w⟩ =
      .ok () ⟨h.alloc (over b (blockOf h v) i j n), w⟩ := by
  rcases ho.2 with ⟨e, hc⟩ | ⟨p, c, hp, hm, hl⟩
  · have : n = 0 := by omega
    subst this
    rw [over_zero]; rfl
  · have hne : p ≠ h.next := by rintro rfl; exact own_ne hf ho hp
    rw [hp, copyRange_ne (b := b) (c := c) hne (by simp only [alloc_ne _ _ hne, hm]) (by simp only [alloc_mem])
      (by omega) hj]
    simp only [alloc_put, blockOf_some hp hm]

theorem dealloc {h : Heap α} {v w : Vec} (ho : Own h v) :
    deallocate v.ptr ⟨h, w⟩ = .ok () ⟨h.drop v.ptr, w⟩ := by
  rcases ho.2 with ⟨e, hc⟩ | ⟨p, c, hp, hm, hl⟩
  · rw [e]; rfl
  · rw [hp]; simp only [deallocate, hm, Heap.drop]

theorem dealloc_new {h : Heap α} {v w : Vec} {b : Buf (Option α)} (hf : Fresh h) (ho : Own h v) :
    deallocate v.ptr ⟨h.alloc b, w⟩ = .ok () ⟨h.move v b, w⟩ := dealloc (own_alloc hf ho b)

theorem move_mem {h : Heap α} {v : Vec} (hf : Fresh h) (ho : Own h v) (b : Buf (Option α)) :
    (h.move v b).mem h.next = some b := by
  have hn := own_ne hf ho
  unfold Heap.move
  rcases e : v.ptr with _ | p
  · exact alloc_mem h b
  · have : h.next ≠ p := by rintro rfl; exact hn e
    simp only [Heap.drop, put_ne _ _ this, alloc_mem]

theorem move_put {h : Heap α} {v : Vec} (hf : Fresh h) (ho : Own h v) (b c : Buf (Option α)) :
    (h.move v b).put h.next (some c) = h.move v c := by
  have hn := own_ne hf ho
  unfold Heap.move
  rcases e : v.ptr with _ | p
  · exact alloc_put h b c
  · have : h.next ≠ p := by rintro rfl; exact hn e
    simp only [Heap.drop, Heap.alloc, Heap.put, Heap.mk.injEq, true_and, and_true]
    funext q
    by_cases h1 : q = h.next
    · subst h1; simp [this]
    · simp [h1]

/-- The storage moved to a new block. -/
theorem upd_move {h : Heap α} {v : Vec} (hf : Fresh h) (ho : Own h v) {b : Buf (Option α)} {m : Nat}
    (hm : m ≤ b.len) : Upd h v (h.move v b) ⟨some h.next, m, b.len⟩ := by
  have hn := own_ne hf ho
  refine ⟨⟨hm, .inr ⟨h.next, b, rfl, move_mem hf ho b, rfl⟩⟩, ?_, ?_, ?_, ?_⟩
  · intro q hq
    unfold Heap.move Heap.drop at *
    rcases e : v.ptr with _ | p
    · simp only [e] at hq ⊢
      have : h.next + 1 ≤ q := hq
      rw [alloc_ne _ _ (by omega)]; exact hf q (by omega)
    · simp only [e] at hq ⊢
      have : h.next + 1 ≤ q := hq
      by_cases h1 : q = p
      · rw [h1, put_same]
      · rw [put_ne _ _ h1, alloc_ne _ _ (by omega)]; exact hf q (by omega)
  · intro q h1 h2
    have h3 : q ≠ h.next := by rintro rfl; exact h2 rfl
    unfold Heap.move Heap.drop
    rcases e : v.ptr with _ | p
    · simp only; exact alloc_ne _ _ h3
    · have : q ≠ p := by rintro rfl; exact h1 e
      simp only; rw [put_ne _ _ this, alloc_ne _ _ h3]
  · intro _
    refine ⟨?_, ?_⟩
    · intro p hp
      simp only [Heap.move, Heap.drop, hp, put_same]
    · intro p hp
      simp only [Option.some.injEq] at hp
      rw [← hp]; exact hf _ (Nat.le_refl _)
  · unfold Heap.move Heap.drop
    rcases v.ptr with _ | p <;> rfl

/-- The contents were changed in place. -/
theorem upd_put {h : Heap α} {v : Vec} {p m : Nat} {b : Buf (Option α)} (hf : Fresh h) (ho : Own h v)
    (hp : v.ptr = some p) (hb : b.len = v.cap) (hm : m ≤ v.cap) :
    Upd h v (h.put p (some b)) { v with size := m } := by
  refine ⟨⟨hm, .inr ⟨p, b, hp, put_same _ _ _, hb⟩⟩, ?_, ?_, ?_, rfl⟩
  · intro q hq
    have h1 : q ≠ p := by
      rintro rfl
      rcases ho.2 with ⟨e, _⟩ | ⟨p', c, hp', hm', _⟩
      · rw [e] at hp; simp at hp
      · rw [hp] at hp'; simp only [Option.some.injEq] at hp'
        rw [← hp', hf q hq] at hm'; simp at hm'
    rw [put_ne _ _ h1]; exact hf q hq
  · intro q h1 _
    rw [put_ne]; rintro rfl; exact h1 hp
  · intro h1; exact absurd rfl h1

/-- Only the size changed. -/
theorem upd_size {h : Heap α} {v : Vec} {m : Nat} (hf : Fresh h) (ho : Own h v) (hm : m ≤ v.cap) :
    Upd h v h { v with size := m } :=
  ⟨⟨hm, ho.2⟩, hf, fun _ _ _ => rfl, fun h1 => absurd rfl h1, rfl⟩

theorem upd_none {h : Heap α} {v : Vec} (hf : Fresh h) (ho : Own h v) : Upd h v h v :=
  ⟨ho, hf, fun _ _ _ => rfl, fun h1 => absurd rfl h1, rfl⟩

theorem same_skip {h : Heap α} (v : Vec) {n : Nat} (hn : h.fails h.next n = true) : Same h v ⟨h.skip, v⟩ :=
  ⟨rfl, rfl, Nat.le_succ _, rfl, n, hn⟩

theorem rep_move {h : Heap α} {v : Vec} (hf : Fresh h) (ho : Own h v) {b : Buf (Option α)} {m c : Nat}
    {l : List (Option α)} (hm : m = l.length) (hl : ∀ k x, l[k]? = some (some x) → b.get k = some x) :
    Rep (h.move v b) ⟨some h.next, m, c⟩ l := by
  refine ⟨hm, ?_⟩
  rw [blockOf_some rfl (move_mem hf ho b)]
  exact hl

theorem rep_put {h : Heap α} {v : Vec} {p m : Nat} {b : Buf (Option α)} {l : List (Option α)}
    (hp : v.ptr = some p) (hm : m = l.length) (hl : ∀ k x, l[k]? = some (some x) → b.get k = some x) :
    Rep (h.put p (some b)) { v with size := m } l := by
  refine ⟨hm, ?_⟩
  rw [blockOf_some (v := { v with size := m }) (p := p) (b := b) hp (put_same _ _ _)]
  exact hl

/-- Reallocating the storage: the new block starts with the old elements. -/
theorem enlarge_or {h : Heap α} {v : Vec} {n : Nat} (hf : Fresh h) (ho : Own h v) (hn : v.size ≤ n) :
    (enlarge n ⟨h, v⟩ = .throw ⟨h.skip, v⟩ ∧ h.fails h.next n = true) ∨
    enlarge n ⟨h, v⟩ = .ok () ⟨h.move v (over (blank n) (blockOf h v) 0 0 v.size), ⟨some h.next, v.size, n⟩⟩ := by
  simp only [enlarge, bind_apply, self_apply]
  rcases allocate_or n h v with ⟨e, ef⟩ | e
  · left; rw [e]; exact ⟨rfl, ef⟩
  · right; rw [e]
    simp only
    rw [copy_new hf ho (by have := ho.1; omega) (by simp only [blank]; omega)]
    simp only
    rw [dealloc_new hf ho]
    rfl

/-- Positions in a list after inserting `n` unspecified elements. -/
theorem insert_get (l : List (Option α)) (pos n k : Nat) (x : α) (hpos : pos ≤ l.length) :
    (l.take pos ++ List.replicate n none ++ l.drop pos)[k]? = some (some x) →
      (k < pos ∧ l[k]? = some (some x)) ∨ (pos + n ≤ k ∧ l[k - n]? = some (some x)) := by
  intro e
  rw [List.append_assoc, List.getElem?_append, List.length_take, Nat.min_eq_left hpos] at e
  split at e
  · next h1 =>
    rw [List.getElem?_take, if_pos h1] at e
    exact .inl ⟨h1, e⟩
  · next h1 =>
    rw [List.getElem?_append, List.length_replicate] at e
    split at e
    · next h2 => rw [List.getElem?_replicate] at e; simp at e
    · next h2 =>
      rw [List.getElem?_drop] at e
      exact .inr ⟨by omega, by rw [← e]; congr 1; omega⟩

/-- Block after making room for `n` elements at `pos` in a new block. -/
def gap (h : Heap α) (v : Vec) (c pos n : Nat) : Buf (Option α) :=
  over (over (blank c) (blockOf h v) 0 0 pos) (blockOf h v) pos (pos + n) (v.size - pos)

theorem enlargeForInsert_or {h : Heap α} {v : Vec} {c pos n : Nat} (hf : Fresh h) (ho : Own h v)
    (hpos : pos ≤ v.size) (hn : v.size + n ≤ c) :
    (enlargeForInsert c pos n ⟨h, v⟩ = .throw ⟨h.skip, v⟩ ∧ h.fails h.next c = true) ∨
    enlargeForInsert c pos n ⟨h, v⟩ = .ok () ⟨h.move v (gap h v c pos n), ⟨some h.next, v.size + n, c⟩⟩ := by
  simp only [enlargeForInsert, bind_apply, self_apply]
  rcases allocate_or c h v with ⟨e, ef⟩ | e
  · left; rw [e]; exact ⟨rfl, ef⟩
  · right; rw [e]
    simp only
    have h0 := ho.1
    rw [copy_new hf ho (by omega) (by simp only [blank]; omega)]
    simp only
    rw [copy_new hf ho (by omega) (by simp only [blank, over]; omega)]
    simp only
    rw [dealloc_new hf ho]
    rfl

theorem gap_get {h : Heap α} {v : Vec} {c pos n : Nat} {l : List (Option α)} (hr : Rep h v l)
    (hpos : pos ≤ v.size) : ∀ k x, (l.take pos ++ List.replicate n none ++ l.drop pos)[k]? = some (some x) →
      (gap h v c pos n).get k = some x := by
  intro k x e
  rcases insert_get l pos n k x (by rw [← hr.1]; exact hpos) e with ⟨h1, h2⟩ | ⟨h1, h2⟩
  · simp only [gap, over]
    rw [if_neg (by omega), if_pos (by omega)]
    simpa using hr.2 k x h2
  · simp only [gap, over]
    have : k - n < l.length := by
      by_contra hc; rw [List.getElem?_eq_none (by omega)] at h2; simp at h2
    rw [if_pos (by have := hr.1; omega)]
    have e2 : pos + (k - (pos + n)) = k - n := by omega
    rw [e2]; exact hr.2 _ x h2

/-! ## The methods -/

variable {h : Heap α} {v : Vec} {l : List (Option α)}

theorem reserve_does (n : Nat) (hf : Fresh h) (ho : Own h v) (hr : Rep h v l) : Does (reserve n) h v l := by
  have h0 := ho.1
  by_cases hc : v.cap < n
  · rcases allocate_or n h v with ⟨e, ef⟩ | e
    · right
      exact ⟨⟨h.skip, v⟩, by simp only [reserve, bind_apply, self_apply, if_pos hc, e], same_skip _ ef⟩
    · left
      refine ⟨⟨h.move v (over (blank n) (blockOf h v) 0 0 v.size), ⟨some h.next, v.size, n⟩⟩, ?_, ?_, ?_⟩
      · simp only [reserve, bind_apply, self_apply, if_pos hc, e]
        rw [copy_new hf ho (by omega) (by simp only [blank]; omega)]
        simp only
        rw [dealloc_new hf ho]; rfl
      · exact upd_move hf ho (b := over (blank n) (blockOf h v) 0 0 v.size) (by simp only [over, blank]; omega)
      · refine rep_move hf ho hr.1 ?_
        intro k x e2
        have hk : k < l.length := by
          by_contra hc'; rw [List.getElem?_eq_none (by omega)] at e2; simp at e2
        simp only [over]
        rw [if_pos (by have := hr.1; omega)]
        simpa using hr.2 k x e2
  · left
    exact ⟨⟨h, v⟩, by simp only [reserve, bind_apply, self_apply, if_neg hc, pure_apply], upd_none hf ho, hr⟩

theorem shrinkToFit_does (hf : Fresh h) (ho : Own h v) (hr : Rep h v l) : Does shrinkToFit h v l := by
  have h0 := ho.1
  by_cases hz : v.size = 0
  · left
    refine ⟨⟨h.drop v.ptr, ⟨none, 0, 0⟩⟩, ?_, ⟨⟨Nat.le_refl _, .inl ⟨rfl, rfl⟩⟩, ?_, ?_, ?_, ?_⟩, ?_, ?_⟩
    · simp only [shrinkToFit, bind_apply, self_apply, if_pos hz]
      rw [dealloc ho]; rfl
    · intro q hq
      rcases e : v.ptr with _ | p
      · simp only [e, Heap.drop] at hq ⊢; exact hf q hq
      · simp only [e, Heap.drop] at hq ⊢
        by_cases h1 : q = p
        · rw [h1, put_same]
        · rw [put_ne _ _ h1]; exact hf q hq
    · intro q h1 _
      rcases e : v.ptr with _ | p
      · rfl
      · simp only [Heap.drop]; rw [put_ne]; rintro rfl; exact h1 e
    · intro _
      refine ⟨?_, by simp⟩
      intro p hp; simp only [hp, Heap.drop, put_same]
    · rcases v.ptr with _ | p <;> rfl
    · rw [← hr.1, hz]
    · intro k x e
      have : l = [] := by
        have := hr.1; rw [hz] at this; exact List.length_eq_zero_iff.1 this.symm
      rw [this] at e; simp at e
  · by_cases hc : v.size < v.cap
    · rcases allocate_or v.size h v with ⟨e, ef⟩ | e
      · right
        exact ⟨⟨h.skip, v⟩, by simp only [shrinkToFit, bind_apply, self_apply, if_neg hz, if_pos hc, e],
          same_skip _ ef⟩
      · left
        refine ⟨⟨h.move v (over (blank v.size) (blockOf h v) 0 0 v.size), ⟨some h.next, v.size, v.size⟩⟩, ?_, ?_, ?_⟩
        · simp only [shrinkToFit, bind_apply, self_apply, if_neg hz, if_pos hc, e]
          rw [copy_new hf ho (by omega) (by simp only [blank]; omega)]
          simp only
          rw [dealloc_new hf ho]; rfl
        · exact upd_move hf ho (b := over (blank v.size) (blockOf h v) 0 0 v.size) (by simp only [over, blank]; omega)
        · refine rep_move hf ho hr.1 ?_
          intro k x e2
          have hk : k < l.length := by
            by_contra hc'; rw [List.getElem?_eq_none (by omega)] at e2; simp at e2
          simp only [over]
          rw [if_pos (by have := hr.1; omega)]
          simpa using hr.2 k x e2
    · left
      exact ⟨⟨h, v⟩, by simp only [shrinkToFit, bind_apply, self_apply, if_neg hz, if_neg hc, pure_apply],
        upd_none hf ho, hr⟩

theorem take_get {n k : Nat} {x : α} {y : Option α} (hy : y = none ∨ y = some x) {l : List (Option α)} (z : α)
    (e : (l.take n ++ List.replicate (n - l.length) y)[k]? = some (some z)) :
    (k < n ∧ k < l.length ∧ l[k]? = some (some z)) ∨ (l.length ≤ k ∧ k < n ∧ y = some x ∧ z = x) := by
  rw [List.getElem?_append] at e
  split at e
  · next h1 =>
    rw [List.length_take] at h1
    rw [List.getElem?_take, if_pos (by omega)] at e
    exact .inl ⟨by omega, by omega, e⟩
  · next h1 =>
    rw [List.length_take] at h1
    rw [List.getElem?_replicate] at e
    split at e
    · next h2 =>
      rcases hy with hy | hy
      · rw [hy] at e; simp at e
      · rw [hy] at e
        simp only [Option.some.injEq] at e
        exact .inr ⟨by omega, by rw [List.length_take] at h2; omega, hy, e.symm⟩
    · simp at e

theorem resize_does (n : Nat) (hf : Fresh h) (ho : Own h v) (hr : Rep h v l) :
    Does (resize n) h v (l.take n ++ List.replicate (n - l.length) none) := by
  have h0 := ho.1
  have hlen : n = (l.take n ++ List.replicate (n - l.length) (none : Option α)).length := by
    simp only [List.length_append, List.length_take, List.length_replicate]; omega
  by_cases hc : v.cap < n
  · have hes : n ≤ enlargeSize v n ∧ v.size ≤ enlargeSize v n := by unfold enlargeSize; omega
    rcases allocate_or (enlargeSize v n) h v with ⟨e, ef⟩ | e
    · right
      exact ⟨⟨h.skip, v⟩, by simp only [resize, bind_apply, self_apply, if_pos hc, e], same_skip _ ef⟩
    · left
      refine ⟨⟨h.move v (over (blank (enlargeSize v n)) (blockOf h v) 0 0 v.size),
        ⟨some h.next, n, enlargeSize v n⟩⟩, ?_, ?_, ?_⟩
      · simp only [resize, bind_apply, self_apply, if_pos hc, e]
        rw [copy_new hf ho (by omega) (by simp only [blank]; omega)]
        simp only
        rw [dealloc_new hf ho]; rfl
      · exact upd_move hf ho (b := over (blank (enlargeSize v n)) (blockOf h v) 0 0 v.size)
          (by simp only [over, blank]; omega)
      · refine rep_move hf ho hlen ?_
        intro k z e2
        rcases take_get (x := z) (.inl rfl) z e2 with ⟨h1, h2, h3⟩ | ⟨_, _, h3, _⟩
        · simp only [over]
          rw [if_pos (by have := hr.1; omega)]
          simpa using hr.2 k z h3
        · simp at h3
  · left
    refine ⟨⟨h, { v with size := n }⟩, by simp only [resize, bind_apply, self_apply, if_neg hc, setSelf_apply],
      upd_size hf ho (by omega), hlen, ?_⟩
    intro k z e2
    rcases take_get (x := z) (.inl rfl) z e2 with ⟨h1, h2, h3⟩ | ⟨_, _, h3, _⟩
    · exact hr.2 k z h3
    · simp at h3

theorem map_val_replicate (n : Nat) (x : α) : List.replicate n (Ref.val x) = (List.replicate n x).map .val := by
  simp

theorem resizeVal_does (n : Nat) (x : α) (hf : Fresh h) (ho : Own h v) (hr : Rep h v l) :
    Does (resizeVal n (.val x)) h v (l.take n ++ List.replicate (n - l.length) (some x)) := by
  have h0 := ho.1
  have hlen : n = (l.take n ++ List.replicate (n - l.length) (some x)).length := by
    simp only [List.length_append, List.length_take, List.length_replicate]; omega
  have h1l := hr.1
  by_cases hc : v.cap < n
  · rcases allocate_or n h v with ⟨e, ef⟩ | e
    · right
      exact ⟨⟨h.skip, v⟩, by simp only [resizeVal, bind_apply, self_apply, ite_apply', if_pos hc, e], same_skip _ ef⟩
    · left
      let b := over (blank n) (blockOf h v) 0 0 v.size
      refine ⟨⟨h.move v (overlay b v.size (List.replicate (n - v.size) x)), ⟨some h.next, n, n⟩⟩, ?_, ?_, ?_⟩
      · simp only [resizeVal, bind_apply, self_apply, ite_apply', if_pos hc, e]
        rw [copy_new hf ho (by omega) (by simp only [blank]; omega)]
        simp only
        rw [dealloc_new hf ho]
        simp only [setSelf_apply]
        rw [if_pos (by omega), map_val_replicate,
          writeAll_vals (b := b) _ (by simp only [move_mem hf ho, b]) (by
            simp only [List.length_replicate, b, over, blank]; omega)]
        simp only [move_put hf ho]
      · exact upd_move hf ho (b := overlay b v.size (List.replicate (n - v.size) x))
          (by simp only [overlay, b, over, blank]; omega)
      · refine rep_move hf ho hlen ?_
        intro k z e2
        rcases take_get (x := x) (.inr rfl) z e2 with ⟨h1, h2, h3⟩ | ⟨h1, h2, _, h4⟩
        · simp only [overlay, b, over]
          rw [if_neg (by omega), if_pos (by omega)]
          simpa using hr.2 k z h3
        · simp only [overlay, List.length_replicate]
          rw [if_pos (by omega), List.getElem?_replicate, if_pos (by omega), h4]
  · left
    by_cases hg : v.size < n
    · rcases ho.2 with ⟨_, hc0⟩ | ⟨p, b, hp, hm, hbl⟩
      · omega
      refine ⟨⟨h.put p (some (overlay b v.size (List.replicate (n - v.size) x))), { v with size := n }⟩, ?_, ?_, ?_⟩
      · simp only [resizeVal, bind_apply, self_apply, ite_apply', if_neg hc, setSelf_apply]
        rw [if_pos hg, map_val_replicate, hp,
          writeAll_vals (b := b) _ (by simp only [hm]) (by simp only [List.length_replicate]; omega)]
      · exact upd_put hf ho hp (by simp only [overlay, hbl]) (by omega)
      · refine rep_put hp hlen ?_
        intro k z e2
        rcases take_get (x := x) (.inr rfl) z e2 with ⟨h1, h2, h3⟩ | ⟨h1, h2, _, h4⟩
        · simp only [overlay]
          rw [if_neg (by omega)]
          have := hr.2 k z h3
          rwa [blockOf_some hp hm] at this
        · simp only [overlay, List.length_replicate]
          rw [if_pos (by omega), List.getElem?_replicate, if_pos (by omega), h4]
    · refine ⟨⟨h, { v with size := n }⟩, ?_, upd_size hf ho (by omega), hlen, ?_⟩
      · simp only [resizeVal, bind_apply, self_apply, ite_apply', if_neg hc, setSelf_apply, if_neg hg, pure_apply]
      · intro k z e2
        rcases take_get (x := x) (.inr rfl) z e2 with ⟨h1, h2, h3⟩ | ⟨h1, h2, _, h4⟩
        · exact hr.2 k z h3
        · omega

theorem map_some_get {xs : List α} {k : Nat} {z : α} (e : (xs.map some)[k]? = some (some z)) :
    k < xs.length ∧ xs[k]? = some z := by
  rw [List.getElem?_map] at e
  rcases h1 : xs[k]? with _ | y
  · rw [h1] at e; simp at e
  · rw [h1] at e; simp only [Option.map_some, Option.some.injEq] at e
    exact ⟨by by_contra hc; rw [List.getElem?_eq_none (by omega)] at h1; simp at h1, by rw [e]⟩

theorem assign_does (xs : List α) (hf : Fresh h) (ho : Own h v) :
    Does (assign (xs.map .val)) h v (xs.map some) := by
  have h0 := ho.1
  by_cases hc : v.cap < xs.length
  · rcases allocate_or xs.length h v with ⟨e, ef⟩ | e
    · right
      exact ⟨⟨h.skip, v⟩, by
        simp only [assign, bind_apply, self_apply, ite_apply', List.length_map, if_pos hc, e], same_skip _ ef⟩
    · left
      refine ⟨⟨h.move v (overlay (blank xs.length) 0 xs), ⟨some h.next, xs.length, xs.length⟩⟩, ?_, ?_, ?_⟩
      · simp only [assign, bind_apply, self_apply, ite_apply', List.length_map, if_pos hc, e]
        rw [dealloc_new hf ho]
        simp only [setSelf_apply]
        rw [writeAll_vals (b := blank xs.length) _ (by simp only [move_mem hf ho]) (by simp only [blank]; omega)]
        simp only [move_put hf ho]
      · exact upd_move hf ho (b := overlay (blank xs.length) 0 xs) (by simp only [overlay, blank]; omega)
      · refine rep_move hf ho (by simp) ?_
        intro k z e2
        obtain ⟨h1, h2⟩ := map_some_get e2
        simp only [overlay]
        rw [if_pos (by omega)]; simpa using h2
  · left
    rcases ho.2 with ⟨hn, hc0⟩ | ⟨p, b, hp, hm, hbl⟩
    · have hxs : xs = [] := List.length_eq_zero_iff.1 (by omega)
      subst hxs
      refine ⟨⟨h, { v with size := 0 }⟩, ?_, upd_size hf ho (by omega), rfl, by simp⟩
      simp only [assign, bind_apply, self_apply, ite_apply', List.length_nil,
        if_neg (Nat.not_lt_zero v.cap), setSelf_apply, List.map_nil, writeAll_nil]
    · refine ⟨⟨h.put p (some (overlay b 0 xs)), { v with size := xs.length }⟩, ?_, ?_, ?_⟩
      · simp only [assign, bind_apply, self_apply, ite_apply', List.length_map, if_neg hc, setSelf_apply, hp]
        rw [writeAll_vals (b := b) _ (by simp only [hm]) (by omega)]
      · exact upd_put hf ho hp (by simp only [overlay, hbl]) (by omega)
      · refine rep_put hp (by simp) ?_
        intro k z e2
        obtain ⟨h1, h2⟩ := map_some_get e2
        simp only [overlay]
        rw [if_pos (by omega)]; simpa using h2

theorem append_get {l : List (Option α)} {xs : List α} {k : Nat} {z : α}
    (e : (l ++ xs.map some)[k]? = some (some z)) :
    (k < l.length ∧ l[k]? = some (some z)) ∨
      (l.length ≤ k ∧ k < l.length + xs.length ∧ xs[k - l.length]? = some z) := by
  rw [List.getElem?_append] at e
  split at e
  · next h1 => exact .inl ⟨h1, e⟩
  · next h1 =>
    obtain ⟨h2, h3⟩ := map_some_get e
    exact .inr ⟨by omega, by omega, h3⟩

theorem pushBackAll_does (xs : List α) (hf : Fresh h) (ho : Own h v) (hr : Rep h v l) :
    Does (pushBackAll (xs.map .val)) h v (l ++ xs.map some) := by
  have h0 := ho.1
  have h1l := hr.1
  by_cases hc : v.cap - v.size < xs.length
  · have hes : v.size + xs.length ≤ enlargeSize v xs.length := by unfold enlargeSize; omega
    rcases enlarge_or (n := enlargeSize v xs.length) hf ho (by omega) with ⟨e, ef⟩ | e
    · right
      exact ⟨⟨h.skip, v⟩, by
        simp only [pushBackAll, bind_apply, self_apply, ite_apply', List.length_map, if_pos hc, e], same_skip _ ef⟩
    · left
      let b := over (blank (enlargeSize v xs.length)) (blockOf h v) 0 0 v.size
      refine ⟨⟨h.move v (overlay b v.size xs), ⟨some h.next, v.size + xs.length, enlargeSize v xs.length⟩⟩, ?_, ?_, ?_⟩
      · simp only [pushBackAll, bind_apply, self_apply, ite_apply', List.length_map, if_pos hc, e]
        rw [writeAll_vals (b := b) _ (by simp only [move_mem hf ho, b]) (by simp only [b, over, blank]; omega)]
        simp only [move_put hf ho, setSelf_apply]
      · exact upd_move hf ho (b := overlay b v.size xs) (by simp only [overlay, b, over, blank]; omega)
      · refine rep_move hf ho (by simp [h1l]) ?_
        intro k z e2
        rcases append_get e2 with ⟨h1, h2⟩ | ⟨h1, h2, h3⟩
        · simp only [overlay, b, over]
          rw [if_neg (by omega), if_pos (by omega)]
          simpa using hr.2 k z h2
        · simp only [overlay]
          rw [if_pos (by omega), h1l]; exact h3
  · left
    rcases ho.2 with ⟨hn, hc0⟩ | ⟨p, b, hp, hm, hbl⟩
    · have hxs : xs = [] := List.length_eq_zero_iff.1 (by omega)
      subst hxs
      refine ⟨⟨h, v⟩, ?_, upd_none hf ho, by simpa using hr⟩
      simp only [pushBackAll, bind_apply, self_apply, ite_apply', List.length_nil,
        if_neg (Nat.not_lt_zero (v.cap - v.size)), setSelf_apply, List.map_nil, writeAll_nil, Nat.add_zero]
    · refine ⟨⟨h.put p (some (overlay b v.size xs)), { v with size := v.size + xs.length }⟩, ?_, ?_, ?_⟩
      · simp only [pushBackAll, bind_apply, self_apply, ite_apply', List.length_map, if_neg hc]
        rw [hp, writeAll_vals (b := b) _ (by simp only [hm]) (by omega)]
        simp only [setSelf_apply]
      · exact upd_put hf ho hp (by simp only [overlay, hbl]) (by omega)
      · refine rep_put hp (by simp [h1l]) ?_
        intro k z e2
        rcases append_get e2 with ⟨h1, h2⟩ | ⟨h1, h2, h3⟩
        · simp only [overlay]
          rw [if_neg (by omega)]
          have := hr.2 k z h2
          rwa [blockOf_some hp hm] at this
        · simp only [overlay]
          rw [if_pos (by omega), h1l]; exact h3

/-- Pushing one element is pushing a list of one element: the two bodies differ in the capacity test only. -/
theorem pushBack_eq (x : α) (ho : Own h v) : pushBack (.val x) ⟨h, v⟩ = pushBackAll ([x].map .val) ⟨h, v⟩ := by
  have h0 := ho.1
  have hcond : (v.size = v.cap) ↔ (v.cap - v.size < 1) := by omega
  simp only [pushBack, pushBackAll, bind_apply, self_apply, ite_apply', List.length_singleton,
    List.map_cons, List.map_nil, writeAll, deref, ret_apply, pure_apply, hcond]
  by_cases hc : v.cap - v.size < 1
  · simp only [if_pos hc]
    rcases enlarge (enlargeSize v 1) ⟨h, v⟩ with ⟨a, s⟩ | s | _
    · simp only
      rcases store s.v.ptr s.v.size (some x) s with ⟨a, t⟩ | t | _ <;> simp
    · rfl
    · rfl
  · simp only [if_neg hc]
    rcases store v.ptr v.size (some x) ⟨h, v⟩ with ⟨a, t⟩ | t | _ <;> simp

theorem pushBack_does (x : α) (hf : Fresh h) (ho : Own h v) (hr : Rep h v l) :
    Does (pushBack (.val x)) h v (l ++ [some x]) := by
  have := pushBackAll_does [x] hf ho hr
  unfold Does at this ⊢
  rw [pushBack_eq x ho]; exact this

theorem pushBackUninitialized_does (n : Nat) (hf : Fresh h) (ho : Own h v) (hr : Rep h v l) :
    Does (pushBackUninitialized n) h v (l ++ List.replicate n none) := by
  have := resize_does (v.size + n) hf ho hr
  have e : l.take (v.size + n) ++ List.replicate (v.size + n - l.length) none = l ++ List.replicate n (none : Option α) := by
    rw [hr.1, List.take_of_length_le (by omega)]; congr 2; omega
  rw [e] at this
  exact this

theorem popBack_does (hf : Fresh h) (ho : Own h v) (hr : Rep h v l) (hl : l ≠ []) :
    Does popBack h v l.dropLast := by
  have h0 := ho.1
  have hpos : 0 < l.length := List.length_pos_of_ne_nil hl
  have hz : ¬ v.size = 0 := by rw [hr.1]; omega
  left
  refine ⟨⟨h, { v with size := v.size - 1 }⟩, ?_, upd_size hf ho (by omega), ?_, ?_⟩
  · simp only [popBack, bind_apply, self_apply, ite_apply', if_neg hz, setSelf_apply]
  · simp [hr.1]
  · intro k z e
    rw [List.getElem?_dropLast] at e
    split at e
    · exact hr.2 k z e
    · simp at e

theorem insertUninitialized_does (pos n : Nat) (hf : Fresh h) (ho : Own h v) (hr : Rep h v l)
    (hpos : pos ≤ l.length) :
    Does (insertUninitialized pos n) h v (l.take pos ++ List.replicate n none ++ l.drop pos) := by
  have h0 := ho.1
  have h1l := hr.1
  have hlen : v.size + n = (l.take pos ++ List.replicate n (none : Option α) ++ l.drop pos).length := by
    simp only [List.length_append, List.length_take, List.length_replicate, List.length_drop]; omega
  by_cases hc : v.cap < v.size + n
  · have hes : v.size + n ≤ enlargeSize v n := by unfold enlargeSize; omega
    rcases enlargeForInsert_or (c := enlargeSize v n) (pos := pos) (n := n) hf ho (by omega) hes with ⟨e, ef⟩ | e
    · right
      exact ⟨⟨h.skip, v⟩, by simp only [insertUninitialized, bind_apply, self_apply, ite_apply', if_pos hc, e],
        same_skip _ ef⟩
    · left
      refine ⟨⟨h.move v (gap h v (enlargeSize v n) pos n), ⟨some h.next, v.size + n, enlargeSize v n⟩⟩, ?_, ?_, ?_⟩
      · simp only [insertUninitialized, bind_apply, self_apply, ite_apply', if_pos hc, e]
      · exact upd_move hf ho (b := gap h v (enlargeSize v n) pos n) (by simp only [gap, over, blank]; omega)
      · exact rep_move hf ho hlen (gap_get hr (by omega))
  · left
    rcases ho.2 with ⟨hn, hc0⟩ | ⟨p, b, hp, hm, hbl⟩
    · have hn0 : n = 0 := by omega
      have hs0 : v.size = 0 := by omega
      have hl0 : l = [] := List.length_eq_zero_iff.1 (by omega)
      subst hn0; subst hl0
      refine ⟨⟨h, v⟩, ?_, upd_none hf ho, by simpa using hr⟩
      simp only [insertUninitialized, bind_apply, self_apply, ite_apply', hs0, Nat.zero_sub,
        moveBackward_zero, setSelf_apply, Nat.add_zero]
      simp only [if_neg (Nat.not_lt_zero v.cap)]
      cases v; simp_all
    · refine ⟨⟨h.put p (some (over b b pos (pos + n) (v.size - pos))), { v with size := v.size + n }⟩, ?_, ?_, ?_⟩
      · simp only [insertUninitialized, bind_apply, self_apply, ite_apply', if_neg hc, hp]
        rw [moveBackward_up (b := b) (by omega) (by simp only [hm]) (by omega)]
        simp only [setSelf_apply]
      · exact upd_put hf ho hp (by simp only [over, hbl]) (by omega)
      · refine rep_put hp hlen ?_
        intro k z e2
        rcases insert_get l pos n k z hpos e2 with ⟨h1, h2⟩ | ⟨h1, h2⟩
        · simp only [over]
          rw [if_neg (by omega)]
          have := hr.2 k z h2
          rwa [blockOf_some hp hm] at this
        · simp only [over]
          have hk : k - n < l.length := by
            by_contra hc; rw [List.getElem?_eq_none (by omega)] at h2; simp at h2
          rw [if_pos (by omega)]
          have e2 : pos + (k - (pos + n)) = k - n := by omega
          rw [e2]
          have := hr.2 _ z h2
          rwa [blockOf_some hp hm] at this

theorem own_size_lt {k : Nat} (ho : Own h v) (hk : k < v.cap) :
    ∃ p b, v.ptr = some p ∧ h.mem p = some b ∧ b.len = v.cap := by
  rcases ho.2 with ⟨_, hc⟩ | hp
  · omega
  · exact hp

/-- Writing values over existing elements. -/
theorem rep_overlay {h' : Heap α} {v' : Vec} {l' : List (Option α)} {p j : Nat} {b : Buf (Option α)} {xs : List α}
    (hp : v'.ptr = some p) (hm : h'.mem p = some b) (hr : Rep h' v' l') (hj : j + xs.length ≤ l'.length) :
    Rep (h'.put p (some (overlay b j xs))) v' (l'.take j ++ xs.map some ++ l'.drop (j + xs.length)) := by
  refine ⟨?_, ?_⟩
  · simp only [List.length_append, List.length_take, List.length_map, List.length_drop, hr.1]; omega
  · intro k z e
    rw [blockOf_some hp (put_same _ _ _)]
    simp only [overlay]
    rw [List.append_assoc, List.getElem?_append, List.length_take] at e
    split at e
    · next h1 =>
      rw [List.getElem?_take, if_pos (by omega)] at e
      rw [if_neg (by omega)]
      have := hr.2 k z e
      rwa [blockOf_some hp hm] at this
    · next h1 =>
      rw [List.getElem?_append, List.length_map] at e
      split at e
      · next h2 =>
        obtain ⟨h3, h4⟩ := map_some_get e
        rw [if_pos (by omega), ← h4]; congr 1; omega
      · next h2 =>
        rw [List.getElem?_drop] at e
        rw [if_neg (by omega)]
        have := hr.2 k z (by rw [← e]; congr 1; omega)
        rwa [blockOf_some hp hm] at this

/-- After a method, overwriting cells of the vector is again an update. -/
theorem upd_then_put {h' : Heap α} {v' : Vec} {p : Nat} {b c : Buf (Option α)} (hu : Upd h v h' v')
    (hp : v'.ptr = some p) (hm : h'.mem p = some b) (hc : c.len = b.len) :
    Upd h v (h'.put p (some c)) v' := by
  obtain ⟨ho, hf, hfr, hmv, hfa⟩ := hu
  have hbl : b.len = v'.cap := by
    rcases ho.2 with ⟨e, _⟩ | ⟨p', b', hp', hm', hl'⟩
    · rw [e] at hp; simp at hp
    · rw [hp] at hp'; simp only [Option.some.injEq] at hp'
      rw [← hp', hm] at hm'; simp only [Option.some.injEq] at hm'
      rw [hm', hl']
  refine ⟨⟨ho.1, .inr ⟨p, c, hp, put_same _ _ _, by omega⟩⟩, ?_, ?_, ?_, hfa⟩
  · intro q hq
    have h1 : q ≠ p := by
      rintro rfl; rw [hf q hq] at hm; simp at hm
    rw [put_ne _ _ h1]; exact hf q hq
  · intro q h1 h2
    have h3 : q ≠ p := by rintro rfl; exact h2 hp
    rw [put_ne _ _ h3]; exact hfr q h1 h2
  · intro hne
    obtain ⟨h1, h2⟩ := hmv hne
    refine ⟨?_, h2⟩
    intro p' hp'
    have h3 : p' ≠ p := by rintro rfl; exact hne (by rw [hp, hp'])
    rw [put_ne _ _ h3]; exact h1 p' hp'

theorem insertAll_does (pos : Nat) (xs : List α) (hf : Fresh h) (ho : Own h v) (hr : Rep h v l)
    (hpos : pos ≤ l.length) :
    Does (insertAll pos (xs.map .val)) h v (l.take pos ++ xs.map some ++ l.drop pos) := by
  rcases insertUninitialized_does pos xs.length hf ho hr hpos with ⟨s, e, hu, hr'⟩ | ⟨s, e, hs⟩
  · left
    by_cases hx : xs = []
    · subst hx
      refine ⟨s, ?_, hu, by simpa using hr'⟩
      simp only [List.length_nil] at e
      simp only [insertAll, bind_apply, self_apply, List.map_nil, writeAll_nil, List.length_nil, e]
    · have hxl : 0 < xs.length := List.length_pos_of_ne_nil hx
      have hsz : s.v.size = l.length + xs.length := by
        rw [hr'.1]
        simp only [List.length_append, List.length_take, List.length_replicate, List.length_drop]; omega
      obtain ⟨p, b, hp, hm, hbl⟩ := own_size_lt (k := 0) hu.own (by have := hu.own.1; omega)
      refine ⟨⟨s.heap.put p (some (overlay b pos xs)), s.v⟩, ?_, ?_, ?_⟩
      · simp only [insertAll, bind_apply, List.length_map, e, self_apply, hp]
        rw [writeAll_vals (b := b) _ hm (by have := hu.own.1; omega)]
      · exact upd_then_put hu hp hm rfl
      · have := rep_overlay (j := pos) (xs := xs) hp hm hr' (by
          simp only [List.length_append, List.length_take, List.length_replicate, List.length_drop]; omega)
        have e1 : (l.take pos ++ List.replicate xs.length none ++ l.drop pos).take pos = l.take pos := by
          rw [List.append_assoc, List.take_append_of_le_length (by rw [List.length_take]; omega),
            List.take_take, Nat.min_self]
        have e2 : (l.take pos ++ List.replicate xs.length none ++ l.drop pos).drop (pos + xs.length) =
            l.drop pos := by
          have h2 : (l.take pos ++ List.replicate xs.length (none : Option α)).length = pos + xs.length := by
            rw [List.length_append, List.length_take, List.length_replicate]; omega
          rw [← h2, List.drop_left]
        rw [e1, e2] at this
        exact this
  · right
    exact ⟨s, by simp only [insertAll, bind_apply, List.length_map, e], hs⟩

/-- Inserting one element is inserting a list of one element. -/
theorem insert_eq (pos : Nat) (x : α) (ho : Own h v) :
    insert pos (.val x) ⟨h, v⟩ = insertAll pos ([x].map .val) ⟨h, v⟩ := by
  have h0 := ho.1
  have hcond : (v.size = v.cap) ↔ (v.cap < v.size + 1) := by omega
  simp only [insert, insertAll, insertUninitialized, bind_apply, self_apply, ite_apply',
    List.length_singleton, List.map_cons, List.map_nil, writeAll, deref, ret_apply, pure_apply, hcond]
  by_cases hc : v.cap < v.size + 1
  · simp only [if_pos hc]
    rcases enlargeForInsert (enlargeSize v 1) pos 1 ⟨h, v⟩ with ⟨a, s⟩ | s | _
    · simp only
      rcases store s.v.ptr pos (some x) s with ⟨a, t⟩ | t | _ <;> simp
    · rfl
    · rfl
  · simp only [if_neg hc]
    rcases moveBackward v.ptr pos (pos + 1) (v.size - pos) ⟨h, v⟩ with ⟨a, s⟩ | s | _
    · simp only [setSelf_apply]
      rcases store v.ptr pos (some x) ⟨s.heap, { v with size := v.size + 1 }⟩ with ⟨a, t⟩ | t | _ <;> simp
    · rfl
    · rfl

theorem insert_does (pos : Nat) (x : α) (hf : Fresh h) (ho : Own h v) (hr : Rep h v l) (hpos : pos ≤ l.length) :
    Does (insert pos (.val x)) h v (l.take pos ++ [some x] ++ l.drop pos) := by
  have := insertAll_does pos [x] hf ho hr hpos
  unfold Does at this ⊢
  rw [insert_eq pos x ho]; exact this

theorem eraseRange_does (i j : Nat) (hf : Fresh h) (ho : Own h v) (hr : Rep h v l) (hij : i ≤ j)
    (hj : j ≤ l.length) : Does (eraseRange i j) h v (l.take i ++ l.drop j) := by
  have h0 := ho.1
  have h1l := hr.1
  have hlen : v.size - (j - i) = (l.take i ++ l.drop j).length := by
    simp only [List.length_append, List.length_take, List.length_drop]; omega
  left
  rcases ho.2 with ⟨hn, hc0⟩ | ⟨p, b, hp, hm, hbl⟩
  · have hl0 : l = [] := List.length_eq_zero_iff.1 (by omega)
    refine ⟨⟨h, { v with size := v.size - (j - i) }⟩, ?_, upd_size hf ho (by omega), hlen, ?_⟩
    · have : v.size - j = 0 := by omega
      simp only [eraseRange, bind_apply, self_apply, this, copyRange_zero, setSelf_apply]
    · subst hl0; simp
  · refine ⟨⟨h.put p (some (over b b j i (v.size - j))), { v with size := v.size - (j - i) }⟩, ?_, ?_, ?_⟩
    · simp only [eraseRange, bind_apply, self_apply, hp]
      rw [copyRange_down (b := b) hij (by simp only [hm]) (by omega)]
      simp only [setSelf_apply]
    · exact upd_put hf ho hp (by simp only [over, hbl]) (by omega)
    · refine rep_put hp hlen ?_
      intro k z e
      simp only [over]
      rw [List.getElem?_append, List.length_take] at e
      split at e
      · next h1 =>
        rw [List.getElem?_take, if_pos (by omega)] at e
        rw [if_neg (by omega)]
        have := hr.2 k z e
        rwa [blockOf_some hp hm] at this
      · next h1 =>
        rw [List.getElem?_drop] at e
        have hk : j + (k - min i l.length) < l.length := by
          by_contra hc; rw [List.getElem?_eq_none (by omega)] at e; simp at e
        rw [if_pos (by omega)]
        have := hr.2 _ z e
        rw [blockOf_some hp hm] at this
        rw [← this]; congr 1; omega

theorem erase_does (i : Nat) (hf : Fresh h) (ho : Own h v) (hr : Rep h v l) (hi : i < l.length) :
    Does (erase i) h v (l.take i ++ l.drop (i + 1)) := by
  have := eraseRange_does i (i + 1) hf ho hr (by omega) (by omega)
  unfold Does at this ⊢
  have e : erase i ⟨h, v⟩ = eraseRange i (i + 1) ⟨h, v⟩ := by
    simp only [erase, eraseRange, bind_apply, self_apply]
    have : i + 1 - i = 1 := by omega
    rw [this]
  rw [e]; exact this

theorem clear_does (hf : Fresh h) (ho : Own h v) : Does clear h v [] := by
  left
  exact ⟨⟨h, { v with size := 0 }⟩, rfl, upd_size hf ho (by omega), rfl, by simp⟩

theorem writeAt_does (i : Nat) (x : α) (hf : Fresh h) (ho : Own h v) (hr : Rep h v l) (hi : i < l.length) :
    Does (writeAt i x) h v (l.set i (some x)) := by
  have h0 := ho.1
  have h1l := hr.1
  obtain ⟨p, b, hp, hm, hbl⟩ := own_size_lt (k := i) ho (by omega)
  left
  refine ⟨⟨h.put p (some ⟨b.len, fun j => if j = i then some x else b.get j⟩), v⟩, ?_, ?_, ?_, ?_⟩
  · simp only [writeAt, bind_apply, self_apply, hp]
    rw [store_some (b := b) (by simp only [hm]) (by omega)]
  · exact upd_then_put (upd_none hf ho) hp hm rfl
  · simp [h1l]
  · intro k z e
    rw [blockOf_some hp (put_same _ _ _)]
    simp only
    rw [List.getElem?_set] at e
    split at e
    · next h1 =>
      rw [if_pos h1.symm]
      simpa [hi, ← h1] using e
    · next h1 =>
      rw [if_neg (by omega)]
      have := hr.2 k z e
      rwa [blockOf_some hp hm] at this

theorem readAt_spec (i : Nat) (x : α) (ho : Own h v) (hr : Rep h v l) (hi : l[i]? = some (some x)) :
    readAt i ⟨h, v⟩ = .ok (some x) ⟨h, v⟩ := by
  have hk : i < l.length := by by_contra hc; rw [List.getElem?_eq_none (by omega)] at hi; simp at hi
  have h0 := ho.1
  have h1l := hr.1
  obtain ⟨p, b, hp, hm, hbl⟩ := own_size_lt (k := i) ho (by omega)
  simp only [readAt, bind_apply, self_apply, hp]
  rw [load_some (b := b) (by simp only [hm]) (by omega)]
  have := hr.2 i x hi
  rw [blockOf_some hp hm] at this
  rw [this]

end Dysco.UVec
