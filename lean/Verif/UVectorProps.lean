import Verif.UVectorSpec

/-!
# `UVector`: programs over any number of vectors (C58)

Reference: a vector is a list in which `none` is an element without a specified value. Each operation on the
lists is written down below with its precondition. A program chooses the next operation from the outcomes of the
earlier ones (whether they threw `bad_alloc`), so exception handling is included.
-/

namespace Dysco.UVec

variable {α : Type}

/-- The reference state. -/
abbrev SPool (α : Type) := Nat → Option (List (Option α))

/-- An operation on the list `i` with precondition `pre`. -/
def SPool.on (S : SPool α) (i : Nat) (pre : List (Option α) → Bool) (f : List (Option α) → List (Option α)) :
    Option (SPool α) :=
  match S i with
  | none => none
  | some l => if pre l then some (setAt S i (some (f l))) else none

/-- Creating the list `i`. -/
def SPool.new (S : SPool α) (i : Nat) (l : List (Option α)) : Option (SPool α) :=
  match S i with
  | none => some (setAt S i (some l))
  | some _ => none

/-- The reference: `none` when the precondition of the operation does not hold. -/
def Op.spec (S : SPool α) : Op α → Option (SPool α)
  | .default i => S.new i []
  | .sized i n => S.new i (List.replicate n none)
  | .from i xs => S.new i (xs.map some)
  | .copyOf i j => (S j).bind fun l => S.new i l
  | .moveOf i j => (S j).bind fun l => (S.new i l).map fun T => setAt T j (some [])
  | .destroy i => (S i).map fun _ => setAt S i none
  | .moveAssign i j => if (S i).isSome then (S j).map fun l => setAt (setAt S i (some l)) j (some []) else none
  | .swap i j =>
    match S i, S j with
    | some l, some m => some (setAt (setAt S i (some m)) j (some l))
    | _, _ => none
  | .set i k x => S.on i (fun l => k < l.length) fun l => l.set k (some x)
  | .resize i n => S.on i (fun _ => true) fun l => l.take n ++ List.replicate (n - l.length) none
  | .resizeVal i n x => S.on i (fun _ => true) fun l => l.take n ++ List.replicate (n - l.length) (some x)
  | .reserve i _ => S.on i (fun _ => true) id
  | .shrinkToFit i => S.on i (fun _ => true) id
  | .assign i xs => S.on i (fun _ => true) fun _ => xs.map some
  | .pushBack i x => S.on i (fun _ => true) fun l => l ++ [some x]
  | .pushBackAll i xs => S.on i (fun _ => true) fun l => l ++ xs.map some
  | .pushBackUninitialized i n => S.on i (fun _ => true) fun l => l ++ List.replicate n none
  | .popBack i => S.on i (fun l => !l.isEmpty) List.dropLast
  | .insert i pos x => S.on i (fun l => pos ≤ l.length) fun l => l.take pos ++ [some x] ++ l.drop pos
  | .insertAll i pos xs => S.on i (fun l => pos ≤ l.length) fun l => l.take pos ++ xs.map some ++ l.drop pos
  | .insertUninitialized i pos n =>
    S.on i (fun l => pos ≤ l.length) fun l => l.take pos ++ List.replicate n none ++ l.drop pos
  | .erase i pos => S.on i (fun l => pos < l.length) fun l => l.take pos ++ l.drop (pos + 1)
  | .eraseRange i first last => S.on i (fun l => first ≤ last && last ≤ l.length) fun l => l.take first ++ l.drop last
  | .clear i => S.on i (fun _ => true) fun _ => []

/-- The vectors `P` show the lists `S`; every vector owns its own storage and every allocated block belongs to a
vector. -/
structure Sim (P : Pool α) (S : SPool α) : Prop where
  fresh : Fresh P.heap
  none_iff : ∀ i, P.vecs i = none ↔ S i = none
  objs : ∀ i v l, P.vecs i = some v → S i = some l → Own P.heap v ∧ Rep P.heap v l
  disj : ∀ i j v w p, i ≠ j → P.vecs i = some v → P.vecs j = some w → v.ptr = some p → w.ptr ≠ some p
  noleak : ∀ p, P.heap.mem p ≠ none → ∃ i v, P.vecs i = some v ∧ v.ptr = some p

theorem setAt_same {β : Type} (f : Nat → β) (i : Nat) (x : β) : setAt f i x i = x := by simp [setAt]
theorem setAt_ne {β : Type} (f : Nat → β) {i j : Nat} (x : β) (h : j ≠ i) : setAt f i x j = f j := by simp [setAt, h]
theorem setAt_setAt {β : Type} (f : Nat → β) (i : Nat) (x y : β) : setAt (setAt f i x) i y = setAt f i y := by
  funext j; unfold setAt; split <;> rfl
theorem setAt_self {β : Type} (f : Nat → β) {i : Nat} {x : β} (h : f i = x) : setAt f i x = f := by
  funext j; unfold setAt; split
  · next e => rw [e, h]
  · rfl

theorem own_frame {h h' : Heap α} {v : Vec} (hm : ∀ p, v.ptr = some p → h'.mem p = h.mem p) (ho : Own h v) :
    Own h' v := by
  refine ⟨ho.1, ?_⟩
  rcases ho.2 with e | ⟨p, b, hp, hb, hl⟩
  · exact .inl e
  · exact .inr ⟨p, b, hp, by rw [hm p hp, hb], hl⟩

theorem blockOf_frame {h h' : Heap α} {v : Vec} (hm : ∀ p, v.ptr = some p → h'.mem p = h.mem p) :
    blockOf h' v = blockOf h v := by
  unfold blockOf
  rcases e : v.ptr with _ | p
  · rfl
  · simp only [Option.bind_some, hm p e]

theorem rep_frame {h h' : Heap α} {v : Vec} {l : List (Option α)}
    (hm : ∀ p, v.ptr = some p → h'.mem p = h.mem p) (hr : Rep h v l) : Rep h' v l := by
  unfold Rep; rw [blockOf_frame hm]; exact hr

/-- An update of one vector. -/
theorem sim_upd {P : Pool α} {S : SPool α} {i : Nat} {v v' : Vec} {h' : Heap α} {l' : List (Option α)}
    (hs : Sim P S) (hv : P.vecs i = some v) (hu : Upd P.heap v h' v') (hr : Rep h' v' l') :
    Sim ⟨h', setAt P.vecs i (some v')⟩ (setAt S i (some l')) := by
  -- another vector's block is not touched
  have hother : ∀ j w p, j ≠ i → P.vecs j = some w → w.ptr = some p → v.ptr ≠ some p ∧ v'.ptr ≠ some p := by
    intro j w p hj hw hp
    have h1 : v.ptr ≠ some p := fun e => hs.disj i j v w p (Ne.symm hj) hv hw e hp
    refine ⟨h1, fun e => ?_⟩
    have hne : v'.ptr ≠ v.ptr := by rw [e]; exact Ne.symm h1
    have h2 := (hu.moved hne).2 p e
    have hSj : ∃ m, S j = some m := by
      rcases hS : S j with _ | m
      · rw [(hs.none_iff j).2 hS] at hw; simp at hw
      · exact ⟨m, rfl⟩
    obtain ⟨m, hm⟩ := hSj
    rcases (hs.objs j w m hw hm).1.2 with ⟨e', _⟩ | ⟨p', b, hp', hb, _⟩
    · rw [hp] at e'; simp at e'
    · rw [hp] at hp'; simp only [Option.some.injEq] at hp'
      rw [← hp', h2] at hb; simp at hb
  have hframe : ∀ j w, j ≠ i → P.vecs j = some w → ∀ p, w.ptr = some p → h'.mem p = P.heap.mem p := by
    intro j w hj hw p hp
    obtain ⟨h1, h2⟩ := hother j w p hj hw hp
    exact hu.frame p h1 h2
  refine ⟨hu.fresh, ?_, ?_, ?_, ?_⟩
  · intro j
    by_cases hj : j = i
    · subst hj; simp only [setAt_same]; simp
    · simp only [setAt_ne _ _ hj]; exact hs.none_iff j
  · intro j w m hw hm
    by_cases hj : j = i
    · subst hj
      simp only [setAt_same, Option.some.injEq] at hw hm
      subst hw; subst hm
      exact ⟨hu.own, hr⟩
    · simp only [setAt_ne _ _ hj] at hw hm
      obtain ⟨ho, hrr⟩ := hs.objs j w m hw hm
      exact ⟨own_frame (hframe j w hj hw) ho, rep_frame (hframe j w hj hw) hrr⟩
  · intro j k w x p hjk hw hx hp
    simp only at hw hx
    by_cases hj : j = i
    · subst hj
      have hk : k ≠ j := Ne.symm hjk
      simp only [setAt_same, Option.some.injEq] at hw
      rw [setAt_ne _ _ hk] at hx
      subst hw
      intro e; exact (hother k x p hk hx e).2 hp
    · rw [setAt_ne _ _ hj] at hw
      by_cases hk : k = i
      · subst hk
        simp only [setAt_same, Option.some.injEq] at hx
        subst hx
        exact (hother j w p hj hw hp).2
      · rw [setAt_ne _ _ hk] at hx
        exact hs.disj j k w x p hjk hw hx hp
  · intro p hp
    by_cases h1 : v'.ptr = some p
    · exact ⟨i, v', setAt_same _ _ _, h1⟩
    · by_cases h2 : v.ptr = some p
      · have hne : v'.ptr ≠ v.ptr := by rw [h2]; exact h1
        exact absurd ((hu.moved hne).1 p h2) hp
      · simp only [hu.frame p h2 h1] at hp
        obtain ⟨j, w, hw, hwp⟩ := hs.noleak p hp
        have hj : j ≠ i := by
          rintro rfl; rw [hv] at hw; simp only [Option.some.injEq] at hw; subst hw; exact h2 hwp
        exact ⟨j, w, by simp only [setAt_ne _ _ hj, hw], hwp⟩

theorem sim_same {P : Pool α} {S : SPool α} {v : Vec} {s : St α} (hs : Sim P S) (hsm : Same P.heap v s) :
    Sim ⟨s.heap, P.vecs⟩ S := by
  obtain ⟨_, hmem, hnext, _⟩ := hsm
  refine ⟨?_, hs.none_iff, ?_, hs.disj, ?_⟩
  · intro q hq; simp only [hmem] at *; exact hs.fresh q (by omega)
  · intro i w l hw hl
    obtain ⟨ho, hr⟩ := hs.objs i w l hw hl
    exact ⟨own_frame (fun p _ => by simp only [hmem]) ho, rep_frame (fun p _ => by simp only [hmem]) hr⟩
  · intro p hp; simp only [hmem] at hp; exact hs.noleak p hp

/-- Result of an operation: done as in the reference, or an allocation failed and nothing changed. -/
def Done (P : Pool α) (S S' : SPool α) (r : Res (Pool α) Unit) : Prop :=
  (∃ Q, r = .ok () Q ∧ Sim Q S' ∧ Q.heap.fails = P.heap.fails) ∨
  (∃ Q, r = .throw Q ∧ Sim Q S ∧ Q.heap.fails = P.heap.fails ∧ ∃ n, P.heap.fails P.heap.next n = true)

theorem on_done {P : Pool α} {S S' : SPool α} {i : Nat} {m : M α Unit} {pre : List (Option α) → Bool}
    {f : List (Option α) → List (Option α)} (hs : Sim P S) (hS : S.on i pre f = some S')
    (hm : ∀ v l, Own P.heap v → Rep P.heap v l → pre l = true → Does m P.heap v (f l)) :
    Done P S S' (Pool.on m i P) := by
  unfold SPool.on at hS
  rcases hl : S i with _ | l
  · rw [hl] at hS; simp at hS
  · rw [hl] at hS
    simp only at hS
    split at hS
    · next hpre =>
      simp only [Option.some.injEq] at hS
      subst hS
      rcases hv : P.vecs i with _ | v
      · rw [(hs.none_iff i).1 hv] at hl; simp at hl
      · obtain ⟨ho, hr⟩ := hs.objs i v l hv hl
        rcases hm v l ho hr hpre with ⟨s, e, hu, hr'⟩ | ⟨s, e, hsm⟩
        · exact .inl ⟨⟨s.heap, setAt P.vecs i (some s.v)⟩, by simp only [Pool.on, hv, e],
            sim_upd hs hv hu hr', hu.fails⟩
        · refine .inr ⟨⟨s.heap, P.vecs⟩, ?_, sim_same hs hsm, hsm.fails, hsm.failed⟩
          simp only [Pool.on, hv, e, hsm.v, setAt_self P.vecs hv]
    · simp at hS

/-- An empty vector can be added. -/
theorem sim_empty {P : Pool α} {S : SPool α} {i : Nat} (hs : Sim P S) (hi : P.vecs i = none) :
    Sim ⟨P.heap, setAt P.vecs i (some Vec.empty)⟩ (setAt S i (some [])) := by
  refine ⟨hs.fresh, ?_, ?_, ?_, ?_⟩
  · intro j
    by_cases hj : j = i
    · subst hj; simp only [setAt_same]; simp
    · simp only [setAt_ne _ _ hj]; exact hs.none_iff j
  · intro j w m hw hm
    by_cases hj : j = i
    · subst hj
      simp only [setAt_same, Option.some.injEq] at hw hm
      subst hw; subst hm
      exact ⟨⟨Nat.le_refl _, .inl ⟨rfl, rfl⟩⟩, rfl, by simp⟩
    · simp only [setAt_ne _ _ hj] at hw hm
      exact hs.objs j w m hw hm
  · intro j k w x p hjk hw hx hp
    simp only at hw hx
    by_cases hj : j = i
    · subst hj
      simp only [setAt_same, Option.some.injEq] at hw
      subst hw; simp [Vec.empty] at hp
    · rw [setAt_ne _ _ hj] at hw
      by_cases hk : k = i
      · subst hk
        simp only [setAt_same, Option.some.injEq] at hx
        subst hx; simp [Vec.empty]
      · rw [setAt_ne _ _ hk] at hx
        exact hs.disj j k w x p hjk hw hx hp
  · intro p hp
    obtain ⟨j, w, hw, hwp⟩ := hs.noleak p hp
    have hj : j ≠ i := by rintro rfl; rw [hi] at hw; simp at hw
    exact ⟨j, w, by simp only [setAt_ne _ _ hj, hw], hwp⟩

theorem new_done {P : Pool α} {S S' : SPool α} {i : Nat} {m : M α Unit} {l : List (Option α)} (hs : Sim P S)
    (hS : S.new i l = some S') (hm : Does m P.heap Vec.empty l) : Done P S S' (Pool.new m i P) := by
  unfold SPool.new at hS
  rcases hl : S i with _ | l0
  · rw [hl] at hS
    simp only [Option.some.injEq] at hS
    subst hS
    have hv := (hs.none_iff i).2 hl
    rcases hm with ⟨s, e, hu, hr'⟩ | ⟨s, e, hsm⟩
    · refine .inl ⟨⟨s.heap, setAt P.vecs i (some s.v)⟩, by simp only [Pool.new, hv, e], ?_, hu.fails⟩
      have := sim_upd (i := i) (v := Vec.empty) (sim_empty hs hv) (setAt_same _ _ _) hu hr'
      simpa only [setAt_setAt] using this
    · exact .inr ⟨⟨s.heap, P.vecs⟩, by simp only [Pool.new, hv, e], sim_same hs hsm, hsm.fails, hsm.failed⟩
  · rw [hl] at hS; simp at hS

theorem own_empty (h : Heap α) : Own h Vec.empty := ⟨Nat.le_refl _, .inl ⟨rfl, rfl⟩⟩

theorem move_empty (h : Heap α) (b : Buf (Option α)) : h.move Vec.empty b = h.alloc b := rfl

theorem construct_does {h : Heap α} (n : Nat) (hf : Fresh h) :
    Does (construct n) h Vec.empty (List.replicate n none) := by
  rcases allocate_or n h Vec.empty with ⟨e, ef⟩ | e
  · right; exact ⟨_, by simp only [construct, bind_apply, e], same_skip _ ef⟩
  · left
    refine ⟨⟨h.alloc (blank n), ⟨some h.next, n, n⟩⟩, by simp only [construct, bind_apply, e, setSelf_apply], ?_, ?_⟩
    · exact upd_move hf (own_empty h) (b := blank n) (by simp only [blank]; omega)
    · refine rep_move hf (own_empty h) (by simp) ?_
      intro k x e2
      rw [List.getElem?_replicate] at e2; simp at e2

theorem constructFrom_does {h : Heap α} (xs : List α) (hf : Fresh h) :
    Does (constructFrom (xs.map .val)) h Vec.empty (xs.map some) := by
  rcases allocate_or xs.length h Vec.empty with ⟨e, ef⟩ | e
  · right; exact ⟨_, by simp only [constructFrom, bind_apply, List.length_map, e], same_skip _ ef⟩
  · left
    refine ⟨⟨h.alloc (overlay (blank xs.length) 0 xs), ⟨some h.next, xs.length, xs.length⟩⟩, ?_, ?_, ?_⟩
    · simp only [constructFrom, bind_apply, List.length_map, e, setSelf_apply]
      rw [writeAll_vals (b := blank xs.length) _ (by simp only [alloc_mem]) (by simp only [blank]; omega)]
      simp only [alloc_put]
    · exact upd_move hf (own_empty h) (b := overlay (blank xs.length) 0 xs) (by simp only [overlay, blank]; omega)
    · refine rep_move hf (own_empty h) (by simp) ?_
      intro k z e2
      obtain ⟨h1, h2⟩ := map_some_get e2
      simp only [overlay]
      rw [if_pos (by omega)]; simpa using h2

theorem copyConstruct_does {h : Heap α} {w : Vec} {l : List (Option α)} (hf : Fresh h) (ho : Own h w) (hr : Rep h w l) :
    Does (copyConstruct w) h Vec.empty l := by
  have h0 := ho.1
  rcases allocate_or w.size h Vec.empty with ⟨e, ef⟩ | e
  · right; exact ⟨_, by simp only [copyConstruct, bind_apply, e], same_skip _ ef⟩
  · left
    refine ⟨⟨h.alloc (over (blank w.size) (blockOf h w) 0 0 w.size), ⟨some h.next, w.size, w.size⟩⟩, ?_, ?_, ?_⟩
    · simp only [copyConstruct, bind_apply, e, setSelf_apply]
      rw [copy_new hf ho (by omega) (by simp only [blank]; omega)]
    · exact upd_move hf (own_empty h) (b := over (blank w.size) (blockOf h w) 0 0 w.size)
        (by simp only [over, blank]; omega)
    · refine rep_move hf (own_empty h) hr.1 ?_
      intro k z e2
      have hk : k < l.length := by
        by_contra hc'; rw [List.getElem?_eq_none (by omega)] at e2; simp at e2
      simp only [over]
      rw [if_pos (by have := hr.1; omega)]
      simpa using hr.2 k z e2

/-- The object `i` disappears and its storage is released. -/
theorem sim_destroy {P : Pool α} {S : SPool α} {i : Nat} {v : Vec} (hs : Sim P S) (hv : P.vecs i = some v) :
    Sim ⟨P.heap.drop v.ptr, setAt P.vecs i none⟩ (setAt S i none) := by
  have hdrop : ∀ q, v.ptr ≠ some q → (P.heap.drop v.ptr).mem q = P.heap.mem q := by
    intro q hq
    rcases e : v.ptr with _ | p
    · rfl
    · simp only [Heap.drop]; rw [put_ne]; rintro rfl; exact hq e
  have hframe : ∀ j w, j ≠ i → P.vecs j = some w → ∀ p, w.ptr = some p → (P.heap.drop v.ptr).mem p = P.heap.mem p := by
    intro j w hj hw p hp
    exact hdrop p (fun e => hs.disj i j v w p (Ne.symm hj) hv hw e hp)
  refine ⟨?_, ?_, ?_, ?_, ?_⟩
  · intro q hq
    by_cases h1 : v.ptr = some q
    · simp only [h1, Heap.drop, put_same]
    · simp only [hdrop q h1]
      apply hs.fresh
      rcases e : v.ptr with _ | p
      · simpa only [e, Heap.drop] using hq
      · simpa only [e, Heap.drop, Heap.put] using hq
  · intro j
    by_cases hj : j = i
    · subst hj; simp only [setAt_same]
    · simp only [setAt_ne _ _ hj]; exact hs.none_iff j
  · intro j w m hw hm
    by_cases hj : j = i
    · subst hj; simp only [setAt_same] at hw; simp at hw
    · simp only [setAt_ne _ _ hj] at hw hm
      obtain ⟨ho, hrr⟩ := hs.objs j w m hw hm
      exact ⟨own_frame (hframe j w hj hw) ho, rep_frame (hframe j w hj hw) hrr⟩
  · intro j k w x p hjk hw hx hp
    simp only at hw hx
    by_cases hj : j = i
    · subst hj; simp only [setAt_same] at hw; simp at hw
    · by_cases hk : k = i
      · subst hk; simp only [setAt_same] at hx; simp at hx
      · rw [setAt_ne _ _ hj] at hw
        rw [setAt_ne _ _ hk] at hx
        exact hs.disj j k w x p hjk hw hx hp
  · intro p hp
    by_cases h1 : v.ptr = some p
    · simp only [h1, Heap.drop, put_same] at hp; simp at hp
    · simp only [hdrop p h1] at hp
      obtain ⟨j, w, hw, hwp⟩ := hs.noleak p hp
      have hj : j ≠ i := by
        rintro rfl; rw [hv] at hw; simp only [Option.some.injEq] at hw; subst hw; exact h1 hwp
      exact ⟨j, w, by simp only [setAt_ne _ _ hj, hw], hwp⟩

theorem destroy_on {P : Pool α} {S : SPool α} {i : Nat} {v : Vec} (hs : Sim P S) (hv : P.vecs i = some v) :
    Pool.on UVec.destroy i P = .ok () ⟨P.heap.drop v.ptr, P.vecs⟩ := by
  have hl : ∃ l, S i = some l := by
    rcases e : S i with _ | l
    · rw [(hs.none_iff i).2 e] at hv; simp at hv
    · exact ⟨l, rfl⟩
  obtain ⟨l, hl⟩ := hl
  have ho := (hs.objs i v l hv hl).1
  simp only [Pool.on, hv, UVec.destroy, bind_apply, self_apply]
  rw [dealloc ho]
  simp only [setAt_self P.vecs hv]

theorem drop_fails (h : Heap α) (p : Option Nat) : (h.drop p).fails = h.fails := by
  rcases p with _ | p <;> rfl

/-- A vector object can be given to another number. -/
theorem sim_rename {P : Pool α} {S : SPool α} {i j : Nat} {w : Vec} {l : List (Option α)} (hs : Sim P S)
    (hi : P.vecs i = none) (hj : P.vecs j = some w) (hl : S j = some l) :
    Sim ⟨P.heap, setAt (setAt P.vecs i (some w)) j (some Vec.empty)⟩ (setAt (setAt S i (some l)) j (some [])) := by
  have hij : i ≠ j := by rintro rfl; rw [hi] at hj; simp at hj
  obtain ⟨how, hrw⟩ := hs.objs j w l hj hl
  have hcase : ∀ k x, setAt (setAt P.vecs i (some w)) j (some Vec.empty) k = some x →
      (k = j ∧ x = Vec.empty) ∨ (k = i ∧ x = w) ∨ (k ≠ i ∧ k ≠ j ∧ P.vecs k = some x) := by
    intro k x hk
    by_cases h1 : k = j
    · subst h1; rw [setAt_same] at hk; exact .inl ⟨rfl, (Option.some.inj hk).symm⟩
    · rw [setAt_ne _ _ h1] at hk
      by_cases h2 : k = i
      · subst h2; rw [setAt_same] at hk; exact .inr (.inl ⟨rfl, (Option.some.inj hk).symm⟩)
      · rw [setAt_ne _ _ h2] at hk; exact .inr (.inr ⟨h2, h1, hk⟩)
  refine ⟨hs.fresh, ?_, ?_, ?_, ?_⟩
  · intro k
    by_cases h1 : k = j
    · subst h1; simp only [setAt_same]; simp
    · simp only [setAt_ne _ _ h1]
      by_cases h2 : k = i
      · subst h2; simp only [setAt_same]; simp
      · simp only [setAt_ne _ _ h2]; exact hs.none_iff k
  · intro k x m hx hm
    rcases hcase k x hx with ⟨rfl, rfl⟩ | ⟨rfl, rfl⟩ | ⟨h1, h2, h3⟩
    · rw [setAt_same] at hm; simp only [Option.some.injEq] at hm; subst hm
      exact ⟨own_empty _, rfl, by simp⟩
    · rw [setAt_ne _ _ hij, setAt_same] at hm; simp only [Option.some.injEq] at hm; subst hm
      exact ⟨how, hrw⟩
    · rw [setAt_ne _ _ h2, setAt_ne _ _ h1] at hm
      exact hs.objs k x m h3 hm
  · intro k k' x y p hkk hx hy hp e
    rcases hcase k x hx with ⟨rfl, rfl⟩ | ⟨rfl, rfl⟩ | ⟨h1, h2, h3⟩
    · simp [Vec.empty] at hp
    · rcases hcase k' y hy with ⟨rfl, rfl⟩ | ⟨rfl, rfl⟩ | ⟨h1', h2', h3'⟩
      · simp [Vec.empty] at e
      · exact hkk rfl
      · exact hs.disj j k' x y p (Ne.symm h2') hj h3' hp e
    · rcases hcase k' y hy with ⟨rfl, rfl⟩ | ⟨rfl, rfl⟩ | ⟨h1', h2', h3'⟩
      · simp [Vec.empty] at e
      · exact hs.disj k j x y p h2 h3 hj hp e
      · exact hs.disj k k' x y p hkk h3 h3' hp e
  · intro p hp
    obtain ⟨k, x, hx, hxp⟩ := hs.noleak p hp
    by_cases h1 : k = j
    · subst h1
      rw [hj] at hx; simp only [Option.some.injEq] at hx; subst hx
      exact ⟨i, w, by simp only [setAt_ne _ _ hij, setAt_same], hxp⟩
    · have h2 : k ≠ i := by rintro rfl; rw [hi] at hx; simp at hx
      exact ⟨k, x, by simp only [setAt_ne _ _ h1, setAt_ne _ _ h2, hx], hxp⟩

/-- Exchanging two objects. -/
theorem sim_swap {P : Pool α} {S : SPool α} {i j : Nat} {v w : Vec} {l m : List (Option α)} (hs : Sim P S)
    (hi : P.vecs i = some v) (hj : P.vecs j = some w) (hl : S i = some l) (hm : S j = some m) :
    Sim ⟨P.heap, setAt (setAt P.vecs i (some w)) j (some v)⟩ (setAt (setAt S i (some m)) j (some l)) := by
  let σ : Nat → Nat := fun k => if k = j then i else if k = i then j else k
  have hP : ∀ k, setAt (setAt P.vecs i (some w)) j (some v) k = P.vecs (σ k) := by
    intro k
    simp only [setAt, σ]
    split
    · exact hi.symm
    · split
      · exact hj.symm
      · rfl
  have hS : ∀ k, setAt (setAt S i (some m)) j (some l) k = S (σ k) := by
    intro k
    simp only [setAt, σ]
    split
    · exact hl.symm
    · split
      · exact hm.symm
      · rfl
  have hinv : ∀ k, σ (σ k) = k := by
    intro k; simp only [σ]; split <;> split <;> simp_all
  refine ⟨hs.fresh, ?_, ?_, ?_, ?_⟩
  · intro k; simp only [hP, hS]; exact hs.none_iff _
  · intro k x y hx hy
    simp only [hP] at hx; rw [hS] at hy
    exact hs.objs _ x y hx hy
  · intro k k' x y p hkk hx hy hp
    simp only [hP] at hx hy
    refine hs.disj (σ k) (σ k') x y p ?_ hx hy hp
    intro e; apply hkk; rw [← hinv k, ← hinv k', e]
  · intro p hp
    obtain ⟨k, x, hx, hxp⟩ := hs.noleak p hp
    exact ⟨σ k, x, by simp only [hP, hinv, hx], hxp⟩

/-- **C58, one operation**: when its precondition holds, an operation does what the reference says, or an
allocation failed and all vectors are unchanged. It never has undefined behaviour. -/
theorem op_done {P : Pool α} {S S' : SPool α} {op : Op α} (hs : Sim P S) (hS : op.spec S = some S') :
    Done P S S' (op.exec P) := by
  have hf := hs.fresh
  cases op with
  | default i => exact new_done hs hS (.inl ⟨⟨P.heap, Vec.empty⟩, rfl, upd_none hf (own_empty _), rfl, by simp⟩)
  | sized i n => exact new_done hs hS (construct_does n hf)
  | «from» i xs => exact new_done hs hS (constructFrom_does xs hf)
  | copyOf i j =>
    simp only [Op.spec] at hS
    rcases hl : S j with _ | l
    · rw [hl] at hS; simp at hS
    · rw [hl] at hS; simp only [Option.bind_some] at hS
      rcases hw : P.vecs j with _ | w
      · rw [(hs.none_iff j).1 hw] at hl; simp at hl
      · obtain ⟨ho, hr⟩ := hs.objs j w l hw hl
        simp only [Op.exec, Pool.copyOf, hw]
        exact new_done hs hS (copyConstruct_does hf ho hr)
  | moveOf i j =>
    simp only [Op.spec] at hS
    rcases hl : S j with _ | l
    · rw [hl] at hS; simp at hS
    · rw [hl] at hS; simp only [Option.bind_some] at hS
      rcases hw : P.vecs j with _ | w
      · rw [(hs.none_iff j).1 hw] at hl; simp at hl
      · rcases hi : S i with _ | l0
        · simp only [SPool.new, hi, Option.map_some, Option.some.injEq] at hS
          have hv := (hs.none_iff i).2 hi
          subst hS
          exact .inl ⟨_, by simp only [Op.exec, Pool.moveOf, hw, hv], sim_rename hs hv hw hl, rfl⟩
        · simp [SPool.new, hi] at hS
  | destroy i =>
    simp only [Op.spec] at hS
    rcases hl : S i with _ | l
    · rw [hl] at hS; simp at hS
    · rw [hl] at hS; simp only [Option.map_some, Option.some.injEq] at hS
      rcases hv : P.vecs i with _ | v
      · rw [(hs.none_iff i).1 hv] at hl; simp at hl
      · subst hS
        refine .inl ⟨⟨P.heap.drop v.ptr, setAt P.vecs i none⟩, ?_, sim_destroy hs hv, drop_fails _ _⟩
        simp only [Op.exec, Pool.destroy, destroy_on hs hv]
  | moveAssign i j =>
    simp only [Op.spec] at hS
    rcases hl : S i with _ | l
    · rw [hl] at hS; simp at hS
    · rw [hl] at hS
      simp only [Option.isSome_some, if_true] at hS
      rcases hm : S j with _ | m
      · rw [hm] at hS; simp at hS
      · rw [hm] at hS; simp only [Option.map_some, Option.some.injEq] at hS
        rcases hv : P.vecs i with _ | v
        · rw [(hs.none_iff i).1 hv] at hl; simp at hl
        rcases hw : P.vecs j with _ | w
        · rw [(hs.none_iff j).1 hw] at hm; simp at hm
        subst hS
        have hd := sim_destroy hs hv
        by_cases hij : i = j
        · subst hij
          refine .inl ⟨⟨P.heap.drop v.ptr, setAt P.vecs i (some Vec.empty)⟩, ?_, ?_, drop_fails _ _⟩
          · simp only [Op.exec, Pool.moveAssign, destroy_on hs hv, hv, setAt_setAt]
          · have := sim_empty (i := i) hd (setAt_same _ _ _)
            simpa only [setAt_setAt] using this
        · have hr := sim_rename (i := i) (j := j) (w := w) (l := m) hd (setAt_same _ _ _)
            (by simp only [setAt_ne _ _ (Ne.symm hij), hw]) (by simp only [setAt_ne _ _ (Ne.symm hij), hm])
          simp only [setAt_setAt] at hr
          refine .inl ⟨_, ?_, hr, drop_fails _ _⟩
          simp only [Op.exec, Pool.moveAssign, destroy_on hs hv, hw]
  | swap i j =>
    simp only [Op.spec] at hS
    rcases hl : S i with _ | l
    · rw [hl] at hS; simp at hS
    · rcases hm : S j with _ | m
      · rw [hl, hm] at hS; simp at hS
      · rw [hl, hm] at hS; simp only [Option.some.injEq] at hS
        rcases hv : P.vecs i with _ | v
        · rw [(hs.none_iff i).1 hv] at hl; simp at hl
        rcases hw : P.vecs j with _ | w
        · rw [(hs.none_iff j).1 hw] at hm; simp at hm
        subst hS
        exact .inl ⟨_, by simp only [Op.exec, Pool.swap, hv, hw], sim_swap hs hv hw hl hm, rfl⟩
  | set i k x =>
    exact on_done hs hS fun v l ho hr hp => writeAt_does k x hf ho hr (by simpa using hp)
  | resize i n => exact on_done hs hS fun v l ho hr _ => resize_does n hf ho hr
  | resizeVal i n x => exact on_done hs hS fun v l ho hr _ => resizeVal_does n x hf ho hr
  | reserve i n => exact on_done hs hS fun v l ho hr _ => reserve_does n hf ho hr
  | shrinkToFit i => exact on_done hs hS fun v l ho hr _ => shrinkToFit_does hf ho hr
  | assign i xs => exact on_done hs hS fun v l ho _ _ => assign_does xs hf ho
  | pushBack i x => exact on_done hs hS fun v l ho hr _ => pushBack_does x hf ho hr
  | pushBackAll i xs => exact on_done hs hS fun v l ho hr _ => pushBackAll_does xs hf ho hr
  | pushBackUninitialized i n => exact on_done hs hS fun v l ho hr _ => pushBackUninitialized_does n hf ho hr
  | popBack i =>
    exact on_done hs hS fun v l ho hr hp => popBack_does hf ho hr (by rintro rfl; simp at hp)
  | insert i pos x =>
    exact on_done hs hS fun v l ho hr hp => insert_does pos x hf ho hr (by simpa using hp)
  | insertAll i pos xs =>
    exact on_done hs hS fun v l ho hr hp => insertAll_does pos xs hf ho hr (by simpa using hp)
  | insertUninitialized i pos n =>
    exact on_done hs hS fun v l ho hr hp => insertUninitialized_does pos n hf ho hr (by simpa using hp)
  | erase i pos =>
    exact on_done hs hS fun v l ho hr hp => erase_does pos hf ho hr (by simpa using hp)
  | eraseRange i a b =>
    exact on_done hs hS fun v l ho hr hp => by
      simp only [Bool.and_eq_true, decide_eq_true_eq] at hp
      exact eraseRange_does a b hf ho hr hp.1 hp.2
  | clear i => exact on_done hs hS fun v l ho _ _ => clear_does hf ho

/-! ## Programs -/

/-- A program: the next operation, given which of the earlier operations threw (newest first). -/
abbrev Prog (α : Type) := List Bool → Option (Op α)

/-- Reference state after the history `hist`. -/
def specAt (prog : Prog α) (S : SPool α) : List Bool → Option (SPool α)
  | [] => some S
  | t :: hist => (specAt prog S hist).bind fun T =>
    match prog hist with
    | none => some T
    | some op => if t then some T else op.spec T

/-- The first `n` operations of the program. -/
def execAt (prog : Prog α) (P : Pool α) : Nat → Option (List Bool × Pool α)
  | 0 => some ([], P)
  | n + 1 => (execAt prog P n).bind fun (hist, Q) =>
    match prog hist with
    | none => some (false :: hist, Q)
    | some op =>
      match op.exec Q with
      | .ok _ R => some (false :: hist, R)
      | .throw R => some (true :: hist, R)
      | .ub => none

/-- Nothing allocated, no objects. -/
def Pool.start (fails : Nat → Nat → Bool) : Pool α := ⟨⟨0, fun _ => none, fails⟩, fun _ => none⟩

theorem sim_start (fails : Nat → Nat → Bool) : Sim (Pool.start fails : Pool α) (fun _ => none) := by
  refine ⟨fun _ _ => rfl, fun _ => by simp [Pool.start], ?_, ?_, ?_⟩
  · intro i v l h; simp [Pool.start] at h
  · intro i j v w p _ h; simp [Pool.start] at h
  · intro p h; simp [Pool.start] at h

/-- The program keeps the preconditions, in the reference. -/
def Valid (prog : Prog α) (S : SPool α) : Prop :=
  ∀ hist T op, specAt prog S hist = some T → prog hist = some op → op.spec T ≠ none

/-- **C58**: every program that keeps the preconditions runs without undefined behaviour, and after any number of
operations the vectors show the lists of the reference, each in storage of its own, and all allocated storage
belongs to a vector. -/
theorem program_refines (prog : Prog α) (fails : Nat → Nat → Bool) (hv : Valid prog fun _ => none) (n : Nat) :
    ∃ hist Q S, execAt prog (Pool.start fails) n = some (hist, Q) ∧ hist.length = n ∧
      specAt prog (fun _ => none) hist = some S ∧ Sim Q S ∧ Q.heap.fails = fails := by
  induction n with
  | zero => exact ⟨[], _, _, rfl, rfl, rfl, sim_start fails, rfl⟩
  | succ n ih =>
    obtain ⟨hist, Q, S, h1, hlen, h2, h3, h4⟩ := ih
    rcases hp : prog hist with _ | op
    · exact ⟨false :: hist, Q, S, by simp only [execAt, h1, Option.bind_some, hp], by simp [hlen],
        by simp only [specAt, h2, Option.bind_some, hp], h3, h4⟩
    · have hne := hv hist S op h2 hp
      rcases hS : op.spec S with _ | S'
      · exact absurd hS hne
      · rcases op_done h3 hS with ⟨R, e, hR, hfa⟩ | ⟨R, e, hR, hfa, _⟩
        · exact ⟨false :: hist, R, S', by simp only [execAt, h1, Option.bind_some, hp, e], by simp [hlen],
            by simp [specAt, h2, hp, hS], hR, by rw [hfa, h4]⟩
        · exact ⟨true :: hist, R, S, by simp only [execAt, h1, Option.bind_some, hp, e], by simp [hlen],
            by simp [specAt, h2, hp], hR, by rw [hfa, h4]⟩

/-- When no allocation fails, no operation throws. -/
theorem no_throw (prog : Prog α) (hv : Valid prog fun _ => none) (n : Nat) :
    ∃ Q S, execAt prog (Pool.start fun _ _ => false) n = some (List.replicate n false, Q) ∧
      specAt prog (fun _ => none) (List.replicate n false) = some S ∧ Sim Q S := by
  suffices H : ∃ Q S, execAt prog (Pool.start fun _ _ => false) n = some (List.replicate n false, Q) ∧
      specAt prog (fun _ => none) (List.replicate n false) = some S ∧ Sim Q S ∧ Q.heap.fails = fun _ _ => false by
    obtain ⟨Q, S, h1, h2, h3, _⟩ := H; exact ⟨Q, S, h1, h2, h3⟩
  induction n with
  | zero => exact ⟨_, _, rfl, rfl, sim_start _, rfl⟩
  | succ n ih =>
    obtain ⟨Q, S, h1, h2, h3, h4⟩ := ih
    rw [List.replicate_succ]
    rcases hp : prog (List.replicate n false) with _ | op
    · exact ⟨Q, S, by simp only [execAt, h1, Option.bind_some, hp], by simp only [specAt, h2, Option.bind_some, hp],
        h3, h4⟩
    · have hne := hv _ S op h2 hp
      rcases hS : op.spec S with _ | S'
      · exact absurd hS hne
      · rcases op_done h3 hS with ⟨R, e, hR, hfa⟩ | ⟨R, e, hR, hfa, k, hk⟩
        · exact ⟨R, S', by simp only [execAt, h1, Option.bind_some, hp, e], by simp [specAt, h2, hp, hS], hR,
            by rw [hfa, h4]⟩
        · rw [h4] at hk; simp at hk

/-- What `Sim` says about a vector: its size is that of the list, at most the capacity, element reads give the
specified values, and `at` throws exactly beyond the size. -/
theorem sim_visible {P : Pool α} {S : SPool α} {i : Nat} {l : List (Option α)} (hs : Sim P S) (hl : S i = some l) :
    ∃ v, P.vecs i = some v ∧ v.size = l.length ∧ v.size ≤ v.cap ∧
      (∀ k x, l[k]? = some (some x) → readAt k ⟨P.heap, v⟩ = .ok (some x) ⟨P.heap, v⟩) ∧
      (∀ k x, l[k]? = some (some x) → at' k ⟨P.heap, v⟩ = .ok (some x) ⟨P.heap, v⟩) ∧
      (∀ k, at' k ⟨P.heap, v⟩ = .throw ⟨P.heap, v⟩ ↔ l.length ≤ k) := by
  rcases hv : P.vecs i with _ | v
  · rw [(hs.none_iff i).1 hv] at hl; simp at hl
  · obtain ⟨ho, hr⟩ := hs.objs i v l hv hl
    have hread : ∀ k x, l[k]? = some (some x) → readAt k ⟨P.heap, v⟩ = .ok (some x) ⟨P.heap, v⟩ :=
      fun k x hx => readAt_spec k x ho hr hx
    refine ⟨v, rfl, hr.1, ho.1, hread, ?_, ?_⟩
    · intro k x hx
      have hk : k < l.length := by by_contra hc; rw [List.getElem?_eq_none (by omega)] at hx; simp at hx
      have := hread k x hx
      simp only [readAt, bind_apply, self_apply] at this
      simp only [at', bind_apply, self_apply, ite_apply']
      rw [if_neg (by rw [hr.1]; omega)]; exact this
    · intro k
      simp only [at', bind_apply, self_apply, ite_apply']
      rw [← hr.1]
      constructor
      · intro e
        by_contra hc
        rw [if_neg hc] at e
        have h0 := ho.1
        obtain ⟨p, b, hp, hm, hbl⟩ := own_size_lt (k := k) ho (by omega)
        rw [hp, load_some (b := b) (by simp only [hm]) (by omega)] at e
        simp at e
      · intro hk; rw [if_pos hk]; rfl

/-- When all vectors have been destroyed, all storage has been released. -/
theorem sim_no_leak {P : Pool α} {S : SPool α} (hs : Sim P S) (hS : ∀ i, S i = none) : ∀ p, P.heap.mem p = none := by
  intro p
  by_contra hp
  obtain ⟨i, v, hv, _⟩ := hs.noleak p hp
  rw [(hs.none_iff i).2 (hS i)] at hv; simp at hv

/-! ## A program that meets the hypotheses -/

/-- Construct, push, copy, erase, move, destroy; stops after the first exception. -/
def demoProg : Prog Nat := fun hist =>
  if hist.any id then none
  else [Op.from 0 [1, 2], .pushBack 0 3, .copyOf 1 0, .erase 0 1, .insertAll 1 1 [7, 8], .moveAssign 0 1,
    .resize 0 6, .destroy 1, .destroy 0][hist.length]?

example : (execAt demoProg (Pool.start fun _ _ => false) 7).map
      (fun r => (r.1, (r.2.vecs 0).map Vec.size, (r.2.vecs 1).map Vec.cap)) =
    some (List.replicate 7 false, some 6, some 0) := by decide +kernel

example : ((specAt demoProg (fun _ => none) (List.replicate 7 false)).map fun S => S 0) =
    some (some [some 1, some 7, some 8, some 2, some 3, none]) := by decide +kernel

/-- A program that keeps the preconditions whichever allocations fail. -/
example : Valid demoProg fun _ => none := by
  have key : ∀ n, n < 9 → ∀ T op, specAt demoProg (fun _ => none) (List.replicate n false) = some T →
      demoProg (List.replicate n false) = some op → (op.spec T).isSome = true := by
    intro n hn
    have : ∀ n, n < 9 → (specAt demoProg (fun _ => none) (List.replicate n false)).all
        (fun T => (demoProg (List.replicate n false)).all fun op => (op.spec T).isSome) = true := by decide
    intro T op hT hop
    have := this n hn
    rw [hT, hop] at this
    simpa using this
  intro hist T op hT hop
  have hall : ∀ t ∈ hist, t = false := by
    by_contra hc
    have hany : hist.any id = true := by
      rw [List.any_eq_true]
      by_contra h2
      apply hc
      intro t ht
      cases t
      · rfl
      · exact absurd ⟨true, ht, rfl⟩ h2
    unfold demoProg at hop
    rw [if_pos hany] at hop; simp at hop
  have hrep : hist = List.replicate hist.length false := List.eq_replicate_iff.2 ⟨rfl, hall⟩
  have hlt : hist.length < 9 := by
    by_contra hge
    unfold demoProg at hop
    split at hop
    · simp at hop
    · rw [List.getElem?_eq_none (by simp only [List.length_cons, List.length_nil]; omega)] at hop; simp at hop
  rw [hrep] at hT hop
  have := key _ hlt T op hT hop
  intro e; rw [e] at this; simp at this

end Dysco.UVec
