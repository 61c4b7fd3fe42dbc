import Verif.TableProps

/-!
# dscompress with any arguments on any table: C113

C56 assumes that the columns exist, are named once and have a free temporary name. Here nothing is assumed: columns may
be missing, named twice, already compressed, have another type, or have a temporary name that is in use, and a column
may be named together with its temporary name.
-/

namespace Dysco.Tools

variable {R A B : Type}

/-! ## Programs that keep `K` wherever they end -/

/-- Started in `P`, the program finishes in `Q`, and `K` holds where it is stopped or throws. -/
def Safe (K P : Table R → Prop) (m : Act R A) (Q : A → Table R → Prop) : Prop :=
  ∀ n t, P t →
    match m n t with
    | .done a _ t' => Q a t'
    | .threw t' => K t'
    | .stopped t' => K t'
    | .ub => False

theorem Safe.pure {K P : Table R → Prop} {a : A} {Q : A → Table R → Prop} (h : ∀ t, P t → Q a t) :
    Safe K P (Pure.pure a) Q := fun _ t hp => h t hp

theorem Safe.bind {K P : Table R → Prop} {m : Act R A} {Q : A → Table R → Prop} {f : A → Act R B}
    {Q' : B → Table R → Prop} (h : Safe K P m Q) (hf : ∀ a, Safe K (Q a) (f a) Q') : Safe K P (m >>= f) Q' := by
  intro n t hp
  have h1 := h n t hp
  show match Act.bind m f n t with
    | .done a _ t' => Q' a t'
    | .threw t' => K t'
    | .stopped t' => K t'
    | .ub => False
  unfold Act.bind
  cases e : m n t with
  | done a n' t' => rw [e] at h1; exact hf a n' t' h1
  | threw t' => rw [e] at h1; exact h1
  | stopped t' => rw [e] at h1; exact h1
  | ub => rw [e] at h1; exact h1

theorem Safe.call {K P : Table R → Prop} {f : Table R → Option (Table R)} {Q : Unit → Table R → Prop}
    (hk : ∀ t, P t → K t) (h : ∀ t t', P t → f t = some t' → Q () t') : Safe K P (call f) Q := by
  intro n t hp
  cases n with
  | zero => exact hk t hp
  | succ n =>
    simp only [Tools.call]
    cases e : f t with
    | none => exact hk t hp
    | some t' => exact h t t' hp e

theorem Safe.query {K P : Table R → Prop} {f : Table R → Option A} {Q : A → Table R → Prop}
    (hk : ∀ t, P t → K t) (h : ∀ t a, P t → f t = some a → Q a t) : Safe K P (query f) Q := by
  intro n t hp
  simp only [Tools.query]
  cases e : f t with
  | none => exact hk t hp
  | some a => exact h t a hp e

theorem Safe.weaken {K P P' : Table R → Prop} {m : Act R A} {Q Q' : A → Table R → Prop} (h : Safe K P m Q)
    (hp : ∀ t, P' t → P t) (hq : ∀ a t, Q a t → Q' a t) : Safe K P' m Q' := by
  intro n t p
  have h1 := h n t (hp t p)
  cases e : m n t with
  | done a n' t' => rw [e] at h1; exact hq a t' h1
  | threw t' => rw [e] at h1; exact h1
  | stopped t' => rw [e] at h1; exact h1
  | ub => rw [e] at h1; exact h1

/-! ## The invariant -/

theorem temp_ne_self (a : Arg) : temp a ≠ a := fun e => by
  have := congrArg List.length e
  simp [temp] at this
  omega

/-- The name of `c` after `k` renames: `TEMP_TEMP_...c`. -/
def temps (k : Nat) (c : Arg) : Arg := temp^[k] c

theorem temps_succ (k : Nat) (c : Arg) : temps (k + 1) c = temp (temps k c) := Function.iterate_succ_apply' temp k c

/-- `x` comes after `b` in the list. -/
def After (l : List Arg) (b x : Arg) : Prop := ∃ p q, l = p ++ b :: q ∧ x ∈ q

theorem After.snoc {l : List Arg} {b x : Arg} (h : After l b x) (a : Arg) : After (l ++ [a]) b x := by
  obtain ⟨p, q, e, hx⟩ := h
  exact ⟨p, q ++ [a], by simp [e], by simp [hx]⟩

theorem After.last {l : List Arg} {b : Arg} (h : b ∈ l) (a : Arg) : After (l ++ [a]) b a := by
  obtain ⟨p, q, e⟩ := List.append_of_mem h
  exact ⟨p, q ++ [a], by simp [e], by simp⟩

/-- What holds after the columns `pre` were prepared, dscompress.cc:334-345. -/
structure Renamed (t0 : Table R) (pre : List Arg) (b : Bool) (t : Table R) : Prop where
  nrow : t.nrow = t0.nrow
  /-- each column is still there, under a name obtained by renaming columns that were prepared -/
  found : ∀ c old, t0.cols c = some old → ∃ k, t.cols (temps k c) = some old ∧ ∀ i < k, temps i c ∈ pre
  /-- nothing else was made -/
  only : ∀ x col, t.cols x = some col → t0.cols x = some col ∨ ∃ c ∈ pre, x = temp c
  /-- where the prepared column went -/
  went : ∀ c ∈ pre, t.cols c ≠ none ∨ t.cols (temp c) ≠ none ∨ After pre c (temp c)
  /-- the temporary name was free -/
  free : ∀ c ∈ pre, t.cols c ≠ none ∨ t0.cols (temp c) = none ∨ temp c ∈ pre
  /-- the column existed, and was not compressed if it was renamed -/
  exist : ∀ c ∈ pre, (∃ d ∈ pre, c = temp d) ∨
    ∃ old, t0.cols c = some old ∧ old.kind = kindOf c ∧ (old.manager ≠ dysco ∨ t.cols c ≠ none)
  /-- nothing replaced -/
  same : b = false → t = t0 ∧ ∀ c ∈ pre, ∃ old, t0.cols c = some old ∧ old.kind = kindOf c ∧ old.manager = dysco

/-- Every column of the table is still there, or it was one of the columns to compress and was copied entirely. -/
def Kept (view : View R) (t0 : Table R) (columns : List Arg) (t : Table R) : Prop :=
  t.nrow = t0.nrow ∧ ∀ c old, t0.cols c = some old →
    (∃ k, t.cols (temps k c) = some old ∧ ∀ i < k, temps i c ∈ columns) ∨
    (c ∈ columns ∧ t.cols c = some (copied view dysco (kindOf c) t0.nrow old))

theorem Renamed.kept {t0 : Table R} {pre : List Arg} {b : Bool} {t : Table R} (h : Renamed t0 pre b t) {view : View R}
    {columns : List Arg} (hs : ∀ c ∈ pre, c ∈ columns) : Kept view t0 columns t :=
  ⟨h.nrow, fun c old e => Or.inl ((h.found c old e).imp fun _ hk => ⟨hk.1, fun i hi => hs _ (hk.2 i hi)⟩)⟩

theorem renamed_nil (t0 : Table R) : Renamed t0 [] false t0 where
  nrow := rfl
  found := fun _ _ e => ⟨0, e, fun i hi => absurd hi (Nat.not_lt_zero i)⟩
  only := fun _ _ e => Or.inl e
  went := fun _ hc => absurd hc List.not_mem_nil
  free := fun _ hc => absurd hc List.not_mem_nil
  exist := fun _ hc => absurd hc List.not_mem_nil
  same := fun _ => ⟨rfl, fun _ hc => absurd hc List.not_mem_nil⟩

/-- A column that is compressed already. -/
theorem Renamed.skip {t0 : Table R} {pre : List Arg} {b : Bool} {t : Table R} (h : Renamed t0 pre b t) {a : Arg}
    {col : Column R} (e : t.cols a = some col) (hk : col.kind = kindOf a) (hm : col.manager = dysco) :
    Renamed t0 (pre ++ [a]) (false || b) t where
  nrow := h.nrow
  found := fun c old e => (h.found c old e).imp fun _ hk => ⟨hk.1, fun i hi => by simp [hk.2 i hi]⟩
  only := fun x col e => (h.only x col e).imp id fun ⟨c, hc, hx⟩ => ⟨c, by simp [hc], hx⟩
  went := fun c hc => by
    rcases List.mem_append.1 hc with hc | hc
    · exact (h.went c hc).imp id (fun h => h.imp id fun h => h.snoc a)
    · obtain rfl := List.mem_singleton.1 hc
      exact Or.inl (by simp [e])
  free := fun c hc => by
    rcases List.mem_append.1 hc with hc | hc
    · exact (h.free c hc).imp id (fun h => h.imp id fun h => by simp [h])
    · obtain rfl := List.mem_singleton.1 hc
      exact Or.inl (by simp [e])
  exist := fun c hc => by
    rcases List.mem_append.1 hc with hc | hc
    · exact (h.exist c hc).imp (fun ⟨d, hd, hx⟩ => ⟨d, by simp [hd], hx⟩) id
    · obtain rfl := List.mem_singleton.1 hc
      rcases h.only c col e with h1 | ⟨d, hd, hx⟩
      · exact Or.inr ⟨col, h1, hk, Or.inr (by simp [e])⟩
      · exact Or.inl ⟨d, by simp [hd], hx⟩
  same := fun hb => by
    obtain ⟨h1, h2⟩ := h.same (by simpa using hb)
    refine ⟨h1, fun c hc => ?_⟩
    rcases List.mem_append.1 hc with hc | hc
    · exact h2 c hc
    · obtain rfl := List.mem_singleton.1 hc
      exact ⟨col, h1 ▸ e, hk, hm⟩

/-- A column that is renamed. -/
theorem Renamed.rename {t0 : Table R} {pre : List Arg} {b : Bool} {t : Table R} (h : Renamed t0 pre b t) {a : Arg}
    {col : Column R} (e : t.cols a = some col) (hk : col.kind = kindOf a) (hm : col.manager ≠ dysco)
    (hf : t.cols (temp a) = none) :
    Renamed t0 (pre ++ [a]) (true || b) ((t.set (temp a) (some col)).set a none) := by
  have hne := temp_ne_self a
  have hself : ((t.set (temp a) (some col)).set a none).cols (temp a) = some col := by simp [Table.set, hne]
  have hother : ∀ x, x ≠ a → t.cols x ≠ none → ((t.set (temp a) (some col)).set a none).cols x = t.cols x := by
    intro x hx hn
    have : x ≠ temp a := fun e => hn (e ▸ hf)
    simp [Table.set, hx, this]
  refine ⟨h.nrow, ?_, ?_, ?_, ?_, ?_, by simp⟩
  · intro c old e0
    obtain ⟨k, hk1, hk2⟩ := h.found c old e0
    by_cases hx : temps k c = a
    · refine ⟨k + 1, ?_, ?_⟩
      · rw [temps_succ, hx, hself, ← e, ← hx, hk1]
      · intro i hi
        rcases Nat.lt_succ_iff_lt_or_eq.1 hi with hi | rfl
        · simp [hk2 i hi]
        · simp [hx]
    · exact ⟨k, by rw [hother _ hx (by simp [hk1]), hk1], fun i hi => by simp [hk2 i hi]⟩
  · intro x col' hx
    by_cases h1 : x = temp a
    · exact Or.inr ⟨a, by simp, h1⟩
    · by_cases h2 : x = a
      · simp [Table.set, h2] at hx
      · rw [show ((t.set (temp a) (some col)).set a none).cols x = t.cols x by simp [Table.set, h1, h2]] at hx
        exact (h.only x col' hx).imp id fun ⟨c, hc, hx⟩ => ⟨c, by simp [hc], hx⟩
  · intro c hc
    by_cases hca : c = a
    · exact Or.inr (Or.inl (by rw [hca, hself]; simp))
    · have hc : c ∈ pre := by simpa [hca] using hc
      rcases h.went c hc with h1 | h1 | h1
      · exact Or.inl (by rw [hother c hca h1]; exact h1)
      · by_cases h2 : temp c = a
        · exact Or.inr (Or.inr (h2 ▸ After.last hc _))
        · exact Or.inr (Or.inl (by rw [hother _ h2 h1]; exact h1))
      · exact Or.inr (Or.inr (h1.snoc a))
  · intro c hc
    by_cases hca : c = a
    · subst hca
      refine Or.inr ?_
      cases e0 : t0.cols (temp c) with
      | none => exact Or.inl rfl
      | some old =>
        obtain ⟨k, hk1, hk2⟩ := h.found _ old e0
        cases k with
        | zero => exact absurd (hk1.symm.trans hf) (by simp)
        | succ k => exact Or.inr (by have := hk2 0 (Nat.succ_pos k); simpa [temps] using Or.inl this)
    · have hc : c ∈ pre := by simpa [hca] using hc
      rcases h.free c hc with h1 | h1 | h1
      · exact Or.inl (by rw [hother c hca h1]; exact h1)
      · exact Or.inr (Or.inl h1)
      · exact Or.inr (Or.inr (by simp [h1]))
  · intro c hc
    by_cases hca : c = a
    · subst hca
      rcases h.only c col e with h1 | ⟨d, hd, hx⟩
      · exact Or.inr ⟨col, h1, hk, Or.inl hm⟩
      · exact Or.inl ⟨d, by simp [hd], hx⟩
    · have hc : c ∈ pre := by simpa [hca] using hc
      rcases h.exist c hc with ⟨d, hd, hx⟩ | ⟨old, h1, h2, h3⟩
      · exact Or.inl ⟨d, by simp [hd], hx⟩
      · exact Or.inr ⟨old, h1, h2, h3.imp id fun h3 => by rw [hother c hca h3]; exact h3⟩

/-! ## The three loops -/

variable {view : View R} {t0 : Table R} {columns : List Arg}

theorem safe_open {K P : Table R → Prop} (hk : ∀ t, P t → K t) (name : Arg) (kind : Kind) :
    Safe K P (openColumn name kind) fun col t => P t ∧ t.cols name = some col ∧ col.kind = kind := by
  refine Safe.query hk fun t a hp e => ⟨hp, ?_⟩
  cases h : t.cols name with
  | none => simp [h] at e
  | some c =>
    by_cases h2 : c.kind = kind
    · simp [h, h2] at e; exact e ▸ ⟨rfl, h2⟩
    · simp [h, h2] at e

theorem safe_prepare {pre : List Arg} {a : Arg} {b : Bool} (hs : ∀ c ∈ pre ++ [a], c ∈ columns) :
    Safe (Kept view t0 columns) (Renamed t0 pre b) (prepareReplacingColumn a dysco (kindOf a))
      fun r t => Renamed t0 (pre ++ [a]) (r || b) t := by
  have hk : ∀ t, Renamed t0 pre b t → Kept view t0 columns t :=
    fun t h => h.kept fun c hc => hs c (by simp [hc])
  unfold prepareReplacingColumn getStorageManager
  refine Safe.bind (Q := fun m t => Renamed t0 pre b t ∧ ∃ col, t.cols a = some col ∧ col.kind = kindOf a ∧ col.manager = m)
    (Safe.bind (safe_open hk a (kindOf a)) fun col => Safe.pure fun t h => ⟨h.1, col, h.2.1, h.2.2, rfl⟩) fun m => ?_
  by_cases hm : m = dysco
  · subst hm
    simp only [ne_eq, not_true_eq_false, if_false]
    exact Safe.pure fun t ⟨h, col, h1, h2, h3⟩ => h.skip h1 h2 h3
  · simp only [ne_eq, hm, not_false_eq_true, if_true]
    refine Safe.bind (Q := fun _ t => Renamed t0 (pre ++ [a]) (true || b) t) (Safe.call (fun t h => hk t h.1) ?_) fun _ =>
      Safe.bind (safe_open (fun t h => h.kept hs) _ _) fun _ => Safe.pure fun t h => h.1
    intro t t' ⟨h, col, h1, h2, h3⟩ e
    cases hf : t.cols (temp a) with
    | some x => simp [h1, hf] at e
    | none =>
      simp only [h1, hf, Option.some.injEq] at e
      exact e ▸ h.rename h1 h2 (h3 ▸ hm) hf

theorem safe_prepareAll (todo : List Arg) : ∀ (pre : List Arg) (b : Bool), pre ++ todo = columns →
    Safe (Kept view t0 columns) (Renamed t0 pre b) (prepareAll todo b) fun r t => Renamed t0 columns r t := by
  induction todo with
  | nil => intro pre b e; exact Safe.pure fun t h => by simpa [← e] using h
  | cons a todo ih =>
    intro pre b e
    have e' : (pre ++ [a]) ++ todo = columns := by simp [← e]
    exact Safe.bind (safe_prepare fun c hc => by rw [← e']; exact List.mem_append_left _ hc)
      fun r => ih (pre ++ [a]) (r || b) e'

/-- An empty compressed column, dscompress.cc:347-357. -/
def fresh (a : Arg) : Column R := ⟨dysco, kindOf a, fun _ => none, []⟩

/-- What holds after the columns `pre` were created, dscompress.cc:347-357; `t1` is the table before. -/
structure Created (t1 : Table R) (pre : List Arg) (t : Table R) : Prop where
  nrow : t.nrow = t1.nrow
  nodup : pre.Nodup
  absent : ∀ c ∈ pre, t1.cols c = none
  made : ∀ c ∈ pre, t.cols c = some (fresh c)
  rest : ∀ x, x ∉ pre → t.cols x = t1.cols x

theorem Created.kept {t1 : Table R} {pre : List Arg} {b : Bool} {t : Table R} (h : Created t1 pre t)
    (h1 : Renamed t0 columns b t1) : Kept view t0 columns t := by
  refine ⟨h.nrow.trans h1.nrow, fun c old e => Or.inl ?_⟩
  obtain ⟨k, hk, hk2⟩ := h1.found c old e
  refine ⟨k, ?_, hk2⟩
  rw [h.rest _ (fun hm => absurd (hk.symm.trans (h.absent _ hm)) (by simp)), hk]

theorem safe_create {t1 : Table R} {b : Bool} (h1 : Renamed t0 columns b t1) (todo : List Arg) : ∀ pre : List Arg,
    Safe (Kept view t0 columns) (Created t1 pre) (forEach (fun a => addColumn a dysco (kindOf a)) todo)
      fun _ t => Created t1 (pre ++ todo) t := by
  induction todo with
  | nil => intro pre; exact Safe.pure fun t h => by simpa using h
  | cons a todo ih =>
    intro pre
    refine Safe.bind (Q := fun _ t => Created t1 (pre ++ [a]) t) (Safe.call (fun t h => h.kept h1) ?_) fun _ => ?_
    · intro t t' h e
      cases hc : t.cols a with
      | some x => simp [hc] at e
      | none =>
        simp only [hc, Option.some.injEq] at e
        subst e
        have hn : a ∉ pre := fun hm => by have := h.made a hm; rw [hc] at this; cases this
        refine ⟨h.nrow, ?_, ?_, ?_, ?_⟩
        · exact List.nodup_append.2 ⟨h.nodup, by simp, fun x hx y hy => by
            rw [List.mem_singleton.1 hy]; exact fun e => hn (e ▸ hx)⟩
        · intro c hm
          rcases List.mem_append.1 hm with hm | hm
          · exact h.absent c hm
          · rw [List.mem_singleton.1 hm, ← h.rest a hn, hc]
        · intro c hm
          by_cases hca : c = a
          · simp [Table.set, hca, fresh]
          · simp [Table.set, hca, h.made c (by simpa [hca] using hm)]
        · intro x hx
          simp only [List.mem_append, List.mem_singleton, not_or] at hx
          simp [Table.set, hx.2, h.rest x hx.1]
    · have := ih (pre ++ [a])
      rwa [List.append_assoc, List.singleton_append] at this

/-- What is known when the columns have been created. -/
structure Ready (t0 : Table R) (columns : List Arg) : Prop where
  nodup : columns.Nodup
  /-- a temporary name in the list comes after its column -/
  order : ∀ c ∈ columns, temp c ∈ columns → After columns c (temp c)
  free : ∀ c ∈ columns, temp c ∉ columns → t0.cols (temp c) = none
  exist : ∀ c ∈ columns, (∃ d ∈ columns, c = temp d) ∨
    ∃ old, t0.cols c = some old ∧ old.kind = kindOf c ∧ old.manager ≠ dysco

theorem ready {t1 t : Table R} {b : Bool} (h1 : Renamed t0 columns b t1) (h : Created t1 columns t) : Ready t0 columns where
  nodup := h.nodup
  order := fun c hc ht => by
    rcases h1.went c hc with h2 | h2 | h2
    · exact absurd (h.absent c hc) h2
    · exact absurd (h.absent _ ht) h2
    · exact h2
  free := fun c hc ht => by
    rcases h1.free c hc with h2 | h2 | h2
    · exact absurd (h.absent c hc) h2
    · exact h2
    · exact absurd h2 ht
  exist := fun c hc => (h1.exist c hc).imp id fun ⟨old, e, hk, hm⟩ => ⟨old, e, hk, hm.resolve_right fun h2 => h2 (h.absent c hc)⟩

/-- What holds when the data of the columns `pre` was moved and that of `todo` was not, dscompress.cc:358-363. -/
structure Moved (view : View R) (t0 : Table R) (columns pre todo : List Arg) (t : Table R) : Prop where
  nrow : t.nrow = t0.nrow
  /-- each column was copied, or is under a name that is not in the list -/
  found : ∀ c old, t0.cols c = some old →
    (c ∈ pre ∧ t.cols c = some (copied view dysco (kindOf c) t0.nrow old)) ∨
    ∃ k, t.cols (temps k c) = some old ∧ (∀ i < k, temps i c ∈ columns) ∧ temps k c ∉ columns ∧ (c ∈ pre → k ≠ 1)
  /-- a column that is yet to be moved is as it was created, or was removed as the temporary column of another one -/
  next : ∀ a ∈ todo, (∃ b ∈ pre, a = temp b) ∧ t.cols a = none ∨ (¬∃ b ∈ pre, a = temp b) ∧ t.cols a = some (fresh a)
  /-- a column that was moved is not a temporary name -/
  plain : ∀ a ∈ pre, ∀ b ∈ columns, a ≠ temp b
  /-- the temporary columns are gone -/
  gone : ∀ a ∈ pre, temp a ∉ todo → t.cols (temp a) = none
  rest : ∀ x, x ∉ columns → (∀ c ∈ columns, x ≠ temp c) → t.cols x = t0.cols x

theorem Moved.kept {pre todo : List Arg} {t : Table R} (h : Moved view t0 columns pre todo t)
    (hs : ∀ c ∈ pre, c ∈ columns) : Kept view t0 columns t :=
  ⟨h.nrow, fun c old e => by
    rcases h.found c old e with ⟨h1, h2⟩ | ⟨k, h1, h2, -⟩
    · exact Or.inr ⟨hs c h1, h2⟩
    · exact Or.inl ⟨k, h1, h2⟩⟩

theorem moved_nil {t1 t : Table R} {b : Bool} (h1 : Renamed t0 columns b t1) (h : Created t1 columns t) :
    Moved view t0 columns [] columns t where
  nrow := h.nrow.trans h1.nrow
  found := fun c old e => by
    obtain ⟨k, hk, hk2⟩ := h1.found c old e
    have hn : temps k c ∉ columns := fun hm => by have := h.absent _ hm; rw [hk] at this; cases this
    exact Or.inr ⟨k, by rw [h.rest _ hn, hk], hk2, hn, fun hc => absurd hc List.not_mem_nil⟩
  next := fun a ha => Or.inr ⟨fun ⟨_, hb, _⟩ => absurd hb List.not_mem_nil, h.made a ha⟩
  plain := fun a ha => absurd ha List.not_mem_nil
  gone := fun a ha => absurd ha List.not_mem_nil
  rest := fun x hx ht => by
    rw [h.rest x hx]
    cases e : t1.cols x with
    | some col =>
      rcases h1.only x col e with h2 | ⟨c, hc, hx⟩
      · exact h2.symm
      · exact absurd hx (ht c hc)
    | none =>
      cases e0 : t0.cols x with
      | none => rfl
      | some old =>
        obtain ⟨k, hk, hk2⟩ := h1.found x old e0
        cases k with
        | zero => rw [← e]; exact hk
        | succ k => exact absurd (hk2 0 (Nat.succ_pos k)) hx

/-- While column `a` is copied: the other columns are as in `t1`. -/
structure Copying (view : View R) (t1 : Table R) (a : Arg) (src : Column R) (k : Nat) (t : Table R) : Prop where
  nrow : t.nrow = t1.nrow
  dest : t.cols a = some (copied view dysco (kindOf a) k src)
  rest : ∀ x, x ≠ a → t.cols x = t1.cols x

theorem copied_zero (a : Arg) (src : Column R) : copied view dysco (kindOf a) 0 src = fresh a := by
  simp [copied, fresh]

theorem copied_succ (a : Arg) (src : Column R) (k : Nat) :
    copied view dysco (kindOf a) (k + 1) src =
      { copied view dysco (kindOf a) k src with
        rows := fun j => if j = k then some (view src k) else (copied view dysco (kindOf a) k src).rows j
        puts := (copied view dysco (kindOf a) k src).puts ++ [(k, view src k)] } := by
  simp only [copied, List.range_succ, List.map_append, List.map_cons, List.map_nil, Column.mk.injEq, true_and, and_true]
  funext j
  by_cases h : j = k
  · simp [h]
  · by_cases h2 : j < k
    · simp [h, h2, Nat.lt_succ_of_lt h2]
    · have : ¬j < k + 1 := by omega
      simp [h, h2, this]

theorem safe_copy {K : Table R → Prop} {t1 : Table R} {a : Arg} {src : Column R} (hsrc : t1.cols (temp a) = some src)
    (hk : ∀ k t, Copying view t1 a src k t → K t) (n : Nat) :
    Safe K (Copying view t1 a src 0) (copyValues view a (temp a) (kindOf a) n) fun _ t => Copying view t1 a src n t := by
  induction n with
  | zero => exact Safe.pure fun t h => h
  | succ n ih =>
    refine Safe.bind ih fun _ => ?_
    unfold getRow
    refine Safe.bind (Q := fun x t => Copying view t1 a src n t ∧ x = view src n)
      (Safe.bind (safe_open (hk n) _ _) fun col => Safe.pure fun t ⟨h, e, _⟩ => ⟨h, ?_⟩) fun x =>
      Safe.call (fun t h => hk n t h.1) ?_
    · rw [h.rest _ (temp_ne_self a), hsrc] at e
      rw [Option.some.inj e]
    · rintro t t' ⟨h, rfl⟩ e
      simp only [h.dest, Option.some.injEq] at e
      subst e
      refine ⟨h.nrow, ?_, fun x hx => ?_⟩
      · rw [copied_succ]
        simp [Table.set]
      · simp [Table.set, hx, h.rest x hx]

theorem After.mem_left {l p q : List Arg} {a b : Arg} (h : After l b a) (e : l = p ++ a :: q) (hn : l.Nodup) : b ∈ p := by
  obtain ⟨p', q', e', hq⟩ := h
  obtain ⟨q1, q2, rfl⟩ := List.append_of_mem hq
  have e2 : (p' ++ b :: q1) ++ a :: q2 = p ++ a :: q := by rw [← e, e']; simp
  rw [← show (p' ++ b :: q1) ++ a :: q2 = l by simp [e']] at hn
  rcases List.append_eq_append_iff.1 e2 with ⟨r, h1, h2⟩ | ⟨r, h1, h2⟩
  · simp [h1]
  · cases r with
    | nil => rw [List.append_nil] at h1; simp [← h1]
    | cons x r =>
      simp only [List.cons_append, List.cons.injEq] at h2
      have ha : a ∈ p' ++ b :: q1 := by rw [h1, ← h2.1]; simp
      exact absurd rfl ((List.nodup_append.1 hn).2.2 a ha a (by simp))

theorem Safe.fix {K P : Table R → Prop} {m : Act R A} {Q : A → Table R → Prop}
    (h : ∀ t1, P t1 → Safe K (fun t => t = t1) m Q) : Safe K P m Q := fun n t hp => h t hp n t rfl

/-- A column in the list whose new column is still there is not a temporary name. -/
theorem Moved.not_temp {pre todo : List Arg} {a : Arg} {t : Table R} (r : Ready t0 columns)
    (h : Moved view t0 columns pre (a :: todo) t) (e : pre ++ a :: todo = columns) {col : Column R}
    (ha : t.cols a = some col) : (∀ b ∈ columns, a ≠ temp b) ∧ t.cols a = some (fresh a) := by
  rcases h.next a (by simp) with ⟨-, h2⟩ | ⟨h1, h2⟩
  · rw [h2] at ha; cases ha
  · refine ⟨fun b hb hab => h1 ⟨b, ?_, hab⟩, h2⟩
    have haf := r.order b hb (by rw [← hab, ← e]; simp)
    rw [← hab] at haf
    exact haf.mem_left e.symm r.nodup

/-- One column is moved. -/
theorem Moved.step {pre todo : List Arg} {a : Arg} {t1 t : Table R} (r : Ready t0 columns)
    (h : Moved view t0 columns pre (a :: todo) t1) (e : pre ++ a :: todo = columns)
    (hp : ∀ b ∈ columns, a ≠ temp b) {src : Column R} (hsrc : t1.cols (temp a) = some src)
    (hc : Copying view t1 a src t0.nrow t) : Moved view t0 columns (pre ++ [a]) todo (t.set (temp a) none) := by
  have ha : a ∈ columns := by rw [← e]; simp
  have hpre : ∀ c ∈ pre, c ∈ columns := fun c hc => by rw [← e]; simp [hc]
  have hnd := r.nodup
  rw [← e] at hnd
  have hap : a ∉ pre := fun hm => (List.nodup_append.1 hnd).2.2 a hm a (by simp) rfl
  have hat : a ∉ todo := (List.nodup_cons.1 (List.nodup_append.1 hnd).2.1).1
  have hother : ∀ x, x ≠ a → x ≠ temp a → (t.set (temp a) none).cols x = t1.cols x := fun x h1 h2 => by
    simp [Table.set, h2, hc.rest x h1]
  refine ⟨hc.nrow.trans h.nrow, ?_, ?_, ?_, ?_, ?_⟩
  · intro c old e0
    rcases h.found c old e0 with ⟨h1, h2⟩ | ⟨k, h1, h2, h3, h4⟩
    · refine Or.inl ⟨by simp [h1], ?_⟩
      rw [hother c (fun e => hap (e ▸ h1)) (h.plain c h1 a ha), h2]
    · have hka : temps k c ≠ a := fun e => h3 (e ▸ ha)
      by_cases hkt : temps k c = temp a
      · match k with
        | 0 =>
          have hct : c = temp a := hkt
          have := r.free a ha (by rw [← hkt]; exact h3)
          rw [← hct, e0] at this
          cases this
        | 1 =>
          have hca : c = a := temp_inj hkt
          subst hca
          have : src = old := Option.some.inj (hsrc.symm.trans (hkt ▸ h1))
          subst this
          exact Or.inl ⟨by simp, by simp [Table.set, (temp_ne_self c).symm, hc.dest]⟩
        | k + 2 =>
          rw [temps_succ] at hkt
          have hx := (temp_inj hkt).symm
          rw [temps_succ] at hx
          exact absurd hx (hp _ (h2 k (by omega)))
      · refine Or.inr ⟨k, by rw [hother _ hka hkt, h1], h2, h3, fun hm hk => ?_⟩
        rcases List.mem_append.1 hm with hm | hm
        · exact h4 hm hk
        · rw [hk, List.mem_singleton.1 hm] at hkt
          exact hkt rfl
  · intro x hx
    have hxa : x ≠ a := fun e => hat (e ▸ hx)
    by_cases hxt : x = temp a
    · exact Or.inl ⟨⟨a, by simp, hxt⟩, by simp [Table.set, hxt]⟩
    · rw [hother x hxa hxt]
      have hiff : (∃ b ∈ pre ++ [a], x = temp b) ↔ ∃ b ∈ pre, x = temp b := by
        constructor
        · rintro ⟨b, hb, hxb⟩
          rcases List.mem_append.1 hb with hb | hb
          · exact ⟨b, hb, hxb⟩
          · exact absurd (List.mem_singleton.1 hb ▸ hxb) hxt
        · rintro ⟨b, hb, hxb⟩
          exact ⟨b, by simp [hb], hxb⟩
      rw [hiff]
      exact h.next x (by simp [hx])
  · intro c hm b hb
    rcases List.mem_append.1 hm with hm | hm
    · exact h.plain c hm b hb
    · rw [List.mem_singleton.1 hm]; exact hp b hb
  · intro c hm ht
    by_cases hca : temp c = temp a
    · simp [Table.set, hca]
    · rcases List.mem_append.1 hm with hm | hm
      · have hta : temp c ≠ a := fun e => hp c (hpre c hm) e.symm
        rw [hother _ hta hca]
        exact h.gone c hm (by simp [hta, ht])
      · exact absurd (congrArg temp (List.mem_singleton.1 hm)) hca
  · intro x hx hxt
    rw [hother x (fun e => hx (e ▸ ha)) (hxt a ha)]
    exact h.rest x hx hxt

theorem safe_move {pre todo : List Arg} {a : Arg} (r : Ready t0 columns) (e : pre ++ a :: todo = columns) :
    Safe (Kept view t0 columns) (Moved view t0 columns pre (a :: todo)) (moveColumnData view a (kindOf a))
      fun _ t => Moved view t0 columns (pre ++ [a]) todo t := by
  have hpre : ∀ c ∈ pre, c ∈ columns := fun c hc => by rw [← e]; simp [hc]
  have ha : a ∈ columns := by rw [← e]; simp
  refine Safe.fix fun t1 h => ?_
  have hk : ∀ t, t = t1 → Kept view t0 columns t := fun t ht => ht ▸ h.kept hpre
  unfold moveColumnData
  refine Safe.bind (safe_open hk _ _) fun src => Safe.bind (safe_open (fun t ht => hk t ht.1) _ _) fun dst => ?_
  refine Safe.fix fun t1' ⟨⟨h1, h2, _⟩, h3, _⟩ => ?_
  subst h1
  obtain ⟨hp, hf⟩ := h.not_temp r e h3
  have hck : ∀ k t, Copying view t1' a src k t → Kept view t0 columns t := by
    intro k t hc
    refine ⟨hc.nrow.trans h.nrow, fun c old e0 => ?_⟩
    rcases h.found c old e0 with ⟨g1, g2⟩ | ⟨j, g1, g2, g3, -⟩
    · have hca : c ≠ a := fun hca => by
        have hnd := r.nodup
        rw [← e] at hnd
        exact (List.nodup_append.1 hnd).2.2 c g1 a (by simp) hca
      exact Or.inr ⟨hpre c g1, by rw [hc.rest c hca, g2]⟩
    · exact Or.inl ⟨j, by rw [hc.rest (temps j c) (fun hx => g3 (hx ▸ ha)), g1], g2⟩
  refine Safe.bind (Q := fun n t => t = t1' ∧ n = t0.nrow)
    (Safe.query hk fun t n ht e => ⟨ht, by rw [← Option.some.inj e, ht, h.nrow]⟩) fun n => ?_
  refine Safe.fix fun t1'' ⟨g1, g2⟩ => ?_
  subst g1 g2
  refine Safe.bind ((safe_copy h2 hck t0.nrow).weaken (fun t ht => by subst ht; exact ⟨rfl, by rw [hf, copied_zero], fun _ _ => rfl⟩)
    fun _ _ ht => ht) fun _ => Safe.call (hck _) fun t t' hc et => ?_
  have hs : t.cols (temp a) = some src := by rw [hc.rest _ (temp_ne_self a), h2]
  simp only [hs, Option.some.injEq] at et
  exact et ▸ h.step r e hp h2 hc

theorem safe_moveAll (r : Ready t0 columns) (todo : List Arg) : ∀ pre : List Arg, pre ++ todo = columns →
    Safe (Kept view t0 columns) (Moved view t0 columns pre todo) (forEach (fun a => moveColumnData view a (kindOf a)) todo)
      fun _ t => Moved view t0 columns columns [] t := by
  induction todo with
  | nil => intro pre e; exact Safe.pure fun t h => by rw [List.append_nil] at e; exact e ▸ h
  | cons a todo ih =>
    intro pre e
    exact Safe.bind (safe_move r e) fun _ => ih (pre ++ [a]) (by simp [← e])

/-! ## C113 -/

/-- All columns were compressed: each existed and was not compressed, and its temporary name was free; its new column
received every row; the temporary columns are gone and nothing else changed. -/
structure Finished (view : View R) (t0 : Table R) (columns : List Arg) (t : Table R) : Prop where
  nrow : t.nrow = t0.nrow
  nodup : columns.Nodup
  each : ∀ c ∈ columns, ∃ old, t0.cols c = some old ∧ old.kind = kindOf c ∧ old.manager ≠ dysco ∧
    t0.cols (temp c) = none ∧ t.cols c = some (copied view dysco (kindOf c) t0.nrow old) ∧ t.cols (temp c) = none
  rest : ∀ x, x ∉ columns → (∀ c ∈ columns, x ≠ temp c) → t.cols x = t0.cols x

theorem Moved.finished {t : Table R} (r : Ready t0 columns) (h : Moved view t0 columns columns [] t) :
    Finished view t0 columns t where
  nrow := h.nrow
  nodup := r.nodup
  rest := h.rest
  each := fun c hc => by
    have hct : temp c ∉ columns := fun hm => h.plain _ hm c hc rfl
    rcases r.exist c hc with ⟨d, hd, hx⟩ | ⟨old, e0, hk, hm⟩
    · exact absurd hx (h.plain c hc d hd)
    · refine ⟨old, e0, hk, hm, r.free c hc hct, ?_, h.gone c hc List.not_mem_nil⟩
      rcases h.found c old e0 with ⟨-, h2⟩ | ⟨k, -, h2, h3, h4⟩
      · exact h2
      · match k with
        | 0 => exact absurd hc h3
        | 1 => exact absurd rfl (h4 hc)
        | k + 2 => exact absurd (h2 1 (by omega)) hct

/-- C113: dscompress on any table with any list of columns, stopped at any point or not: when it throws or is stopped,
every column of the table is still there under its name or with `TEMP_` in front of it (once or more), or it was copied
entirely; when it finishes, either all columns were compressed already and the table is unchanged, or it did its work. -/
theorem compress_any (view : View R) (columns : List Arg) (t0 : Table R) (n : Nat) :
    match compressColumns view columns n t0 with
    | .done _ _ t => Finished view t0 columns t ∨
        (t = t0 ∧ ∀ c ∈ columns, ∃ old, t0.cols c = some old ∧ old.kind = kindOf c ∧ old.manager = dysco)
    | .threw t => Kept view t0 columns t
    | .stopped t => Kept view t0 columns t
    | .ub => False := by
  have h : Safe (Kept view t0 columns) (Renamed t0 [] false) (compressColumns view columns)
      fun _ t => Finished view t0 columns t ∨
        (t = t0 ∧ ∀ c ∈ columns, ∃ old, t0.cols c = some old ∧ old.kind = kindOf c ∧ old.manager = dysco) := by
    unfold compressColumns
    refine Safe.bind (safe_prepareAll columns [] false rfl) fun b => ?_
    cases b with
    | false => exact Safe.pure fun t h => Or.inr (h.same rfl)
    | true =>
      refine Safe.fix fun t1 h1 => ?_
      simp only [if_true]
      refine Safe.bind ((safe_create h1 columns []).weaken
        (fun t ht => ht ▸ ⟨rfl, List.nodup_nil, fun _ hc => absurd hc List.not_mem_nil,
          fun _ hc => absurd hc List.not_mem_nil, fun _ _ => rfl⟩) fun _ _ ht => ht) fun _ => ?_
      refine Safe.fix fun t2 h2 => ?_
      have r := ready h1 h2
      exact (safe_moveAll r columns [] rfl).weaken (fun t ht => ht ▸ moved_nil h1 h2) fun _ t ht => Or.inl (ht.finished r)
  have h1 := h n t0 (renamed_nil t0)
  cases e : compressColumns view columns n t0 with
  | done a k t => rw [e] at h1; exact h1
  | threw t => rw [e] at h1; exact h1
  | stopped t => rw [e] at h1; exact h1
  | ub => rw [e] at h1; exact h1

/-- C113: a column that is named twice, or together with its temporary name, is never compressed. -/
theorem compress_twice (view : View R) (columns : List Arg) (t0 : Table R) (n : Nat)
    (hd : ¬columns.Nodup ∨ ∃ c ∈ columns, temp c ∈ columns)
    (hn : ∃ c ∈ columns, ∀ old, t0.cols c = some old → old.manager ≠ dysco) {k : Nat} {t : Table R} :
    compressColumns view columns n t0 ≠ .done () k t := by
  intro e
  have h := compress_any view columns t0 n
  rw [e] at h
  rcases h with h | ⟨-, h⟩
  · rcases hd with hd | ⟨c, hc, ht⟩
    · exact hd h.nodup
    · obtain ⟨old, -, -, -, hf, -⟩ := h.each c hc
      obtain ⟨old', he, -⟩ := h.each _ ht
      rw [hf] at he
      cases he
  · obtain ⟨c, hc, hm⟩ := hn
    obtain ⟨old, he, -, h2⟩ := h c hc
    exact hm old he h2

/-! ## Witnesses -/

/-- A table with one row and a DATA column. -/
def oneColumn : Table Nat :=
  ⟨1, fun x => if x = "DATA".toList then some ⟨default', .complex, fun _ => some 7, []⟩ else none⟩

/-- `-column DATA -column DATA`: an exception, with the data under the temporary name only. -/
example : ∃ t, compressColumns (fun c k => (c.rows k).getD 0) ["DATA".toList, "DATA".toList] 100 oneColumn = .threw t ∧
    t.cols "DATA".toList = none ∧ t.cols "TEMP_DATA".toList = oneColumn.cols "DATA".toList :=
  ⟨_, rfl, rfl, rfl⟩

/-- `-column DATA -column TEMP_DATA`: an exception, with the data under `TEMP_TEMP_DATA` and an empty column, read
back as zero, under `DATA`. -/
example : ∃ t, compressColumns (fun c k => (c.rows k).getD 0) ["DATA".toList, "TEMP_DATA".toList] 100 oneColumn = .threw t ∧
    (t.cols "DATA".toList).map (fun c => c.rows 0) = some (some 0) ∧
    t.cols "TEMP_TEMP_DATA".toList = oneColumn.cols "DATA".toList :=
  ⟨_, rfl, rfl, rfl⟩

/-- A column that does not exist after one that does. -/
example : ∃ t, compressColumns (fun c k => (c.rows k).getD 0) ["DATA".toList, "NONE".toList] 100 oneColumn = .threw t ∧
    t.cols "DATA".toList = none ∧ t.cols "TEMP_DATA".toList = oneColumn.cols "DATA".toList :=
  ⟨_, rfl, rfl, rfl⟩

/-- A run that finishes. -/
example : ∃ k t, compressColumns (fun c k => (c.rows k).getD 0) ["DATA".toList] 100 oneColumn = .done () k t ∧
    (t.cols "DATA".toList).map (fun c => c.manager) = some dysco := ⟨_, _, rfl, rfl⟩

end Dysco.Tools
