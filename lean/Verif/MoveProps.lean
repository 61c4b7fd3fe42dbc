import Verif.ToolsModel
import Mathlib.Logic.Function.Basic

/-!
# Changing the storage manager of columns: C56, C57
-/

namespace Dysco.Tools

variable {R A B : Type}

/-- Columns that are moved to another manager, and the table at the start. -/
structure Setup (R : Type) where
  view : View R
  manager : Arg
  kind : Arg → Kind
  columns : List Arg
  table : Table R

/-- The columns exist with the expected type and their temporary names are free. -/
structure Setup.Ok (S : Setup R) : Prop where
  exist : ∀ c ∈ S.columns, ∃ col, S.table.cols c = some col ∧ col.kind = S.kind c
  free : ∀ c ∈ S.columns, S.table.cols (temp c) = none

/-- How far the move of a column is. -/
inductive Phase where
  /-- not begun -/
  | orig
  /-- the old column has its temporary name -/
  | renamed
  /-- the new column exists and has the first `k` rows -/
  | copying (k : Nat)
  /-- finished -/
  | moved

/-- The new column with the first `k` rows: the values that are read from the old one, each put once, in order. -/
def Setup.newCol (S : Setup R) (c : Arg) (k : Nat) : Column R :=
  ⟨S.manager, S.kind c, fun r => if r < k then (S.table.cols c).map fun col => S.view col r else none,
    (List.range k).filterMap fun r => (S.table.cols c).map fun col => (r, S.view col r)⟩

/-- The columns named `c` and `TEMP_c` in each phase. -/
def Setup.At (S : Setup R) (t : Table R) (c : Arg) : Phase → Prop
  | .orig => t.cols c = S.table.cols c ∧ t.cols (temp c) = none
  | .renamed => t.cols c = none ∧ t.cols (temp c) = S.table.cols c
  | .copying k => t.cols c = some (S.newCol c k) ∧ t.cols (temp c) = S.table.cols c
  | .moved => t.cols c = some (S.newCol c S.table.nrow) ∧ t.cols (temp c) = none

/-- The table when the columns are in the given phases; the other columns are as at the start. -/
structure Setup.Like (S : Setup R) (ph : Arg → Phase) (t : Table R) : Prop where
  nrow : t.nrow = S.table.nrow
  at_ : ∀ c ∈ S.columns, S.At t c (ph c)
  rest : ∀ d, d ∉ S.columns → (∀ c ∈ S.columns, d ≠ temp c) → t.cols d = S.table.cols d

theorem temp_inj {a b : Arg} (h : temp a = temp b) : a = b := List.append_cancel_left h

theorem Setup.Ok.sep {S : Setup R} (h : S.Ok) {c d : Arg} (hc : c ∈ S.columns) (hd : d ∈ S.columns) : c ≠ temp d := by
  intro e
  obtain ⟨col, h1, -⟩ := h.exist c hc
  rw [e, h.free d hd] at h1
  cases h1

/-- A table with other columns at `c` and `TEMP_c`. -/
theorem Setup.Like.update {S : Setup R} (ok : S.Ok) {ph : Arg → Phase} {t t' : Table R} (h : S.Like ph t) {c : Arg}
    (hc : c ∈ S.columns) {x : Phase} (hn : t'.nrow = t.nrow) (hx : S.At t' c x)
    (ho : ∀ d, d ≠ c → d ≠ temp c → t'.cols d = t.cols d) : S.Like (Function.update ph c x) t' := by
  refine ⟨hn.trans h.nrow, ?_, ?_⟩
  · intro d hd
    by_cases hdc : d = c
    · subst hdc
      rw [Function.update_self]; exact hx
    · rw [Function.update_of_ne hdc]
      have e1 := ho d hdc (ok.sep hd hc)
      have e2 := ho (temp d) (fun e => ok.sep hc hd e.symm) (fun e => hdc (temp_inj e))
      have := h.at_ d hd
      revert this
      cases ph d <;> simp only [Setup.At, e1, e2] <;> exact id
  · intro d hd1 hd2
    rw [ho d (fun e => hd1 (e ▸ hc)) (hd2 c hc)]
    exact h.rest d hd1 hd2

/-- The program changes phases `ph` to `ph'` with `k` calls and result `a`; when it is stopped before, the table is in
some phases. It never throws. -/
def Setup.Does (S : Setup R) (m : Act R A) (k : Nat) (ph : Arg → Phase) (a : A) (ph' : Arg → Phase) : Prop :=
  ∀ n t, S.Like ph t →
    (k ≤ n → ∃ t', m n t = .done a (n - k) t' ∧ S.Like ph' t') ∧
    (n < k → ∃ t' ph'', m n t = .stopped t' ∧ S.Like ph'' t')

theorem does_pure (S : Setup R) (ph : Arg → Phase) (a : A) : S.Does (pure a : Act R A) 0 ph a ph :=
  fun _ t h => ⟨fun _ => ⟨t, rfl, h⟩, fun h => by omega⟩

theorem does_bind {S : Setup R} {m : Act R A} {f : A → Act R B} {k k' : Nat} {ph ph' ph'' : Arg → Phase} {a : A} {b : B}
    (h : S.Does m k ph a ph') (h' : S.Does (f a) k' ph' b ph'') : S.Does (m >>= f) (k + k') ph b ph'' := by
  intro n t ht
  have e : (m >>= f) n t = (match m n t with
    | .done a n' t' => f a n' t'
    | .threw t' => .threw t'
    | .stopped t' => .stopped t'
    | .ub => .ub) := rfl
  by_cases hk : k ≤ n
  · obtain ⟨t1, e1, h1⟩ := (h n t ht).1 hk
    rw [e, e1]
    constructor
    · intro hkk
      obtain ⟨t2, e2, h2⟩ := (h' (n - k) t1 h1).1 (by omega)
      exact ⟨t2, by rw [← Nat.sub_sub]; exact e2, h2⟩
    · intro hkk
      exact (h' (n - k) t1 h1).2 (by omega)
  · obtain ⟨t1, ph1, e1, h1⟩ := (h n t ht).2 (by omega)
    rw [e, e1]
    exact ⟨fun hkk => by omega, fun _ => ⟨t1, ph1, rfl, h1⟩⟩

theorem bind_done {m : Act R A} {f : A → Act R B} {n n' : Nat} {t t' : Table R} {a : A} (h : m n t = .done a n' t') :
    (m >>= f) n t = f a n' t' := by
  show Act.bind m f n t = _
  rw [Act.bind, h]

theorem bind_threw {m : Act R A} {f : A → Act R B} {n : Nat} {t t' : Table R} (h : m n t = .threw t') :
    (m >>= f) n t = .threw t' := by
  show Act.bind m f n t = _
  rw [Act.bind, h]

theorem does_query {S : Setup R} {f : Table R → Option A} {ph : Arg → Phase} {a : A}
    (h : ∀ t, S.Like ph t → f t = some a) : S.Does (query f) 0 ph a ph := by
  intro n t ht
  refine ⟨fun _ => ⟨t, ?_, ht⟩, fun h => by omega⟩
  rw [query, h t ht]; rfl

theorem does_call {S : Setup R} {f : Table R → Option (Table R)} {ph ph' : Arg → Phase}
    (h : ∀ t, S.Like ph t → ∃ t', f t = some t' ∧ S.Like ph' t') : S.Does (call f) 1 ph () ph' := by
  intro n t ht
  cases n with
  | zero => exact ⟨fun h => by omega, fun _ => ⟨t, ph, rfl, ht⟩⟩
  | succ n =>
    obtain ⟨t', e, h'⟩ := h t ht
    refine ⟨fun _ => ⟨t', ?_, h'⟩, fun h => by omega⟩
    rw [call]; simp only [e]; rfl

section ops
variable {S : Setup R} (ok : S.Ok) {ph : Arg → Phase} {c : Arg} (hc : c ∈ S.columns)
include ok hc

theorem temp_ne : temp c ≠ c := fun e => ok.sep hc hc e.symm

theorem does_rename (hp : ph c = .orig) :
    S.Does (renameColumn (temp c) c) 1 ph () (Function.update ph c .renamed) := by
  refine does_call fun t h => ?_
  obtain ⟨col, e, -⟩ := ok.exist c hc
  have ha := h.at_ c hc
  rw [hp] at ha
  obtain ⟨h1, h2⟩ := ha
  refine ⟨(t.set (temp c) (some col)).set c none, ?_, ?_⟩
  · simp only [h1, h2, e]
  · refine h.update ok hc rfl ⟨?_, ?_⟩ ?_
    · simp [Table.set]
    · simp [Table.set, temp_ne ok hc, e]
    · intro d hd1 hd2
      simp [Table.set, hd1, hd2]

theorem does_add (hp : ph c = .renamed) :
    S.Does (addColumn c S.manager (S.kind c)) 1 ph () (Function.update ph c (.copying 0)) := by
  refine does_call fun t h => ?_
  have ha := h.at_ c hc
  rw [hp] at ha
  obtain ⟨h1, h2⟩ := ha
  refine ⟨_, by simp only [h1]; rfl, ?_⟩
  refine h.update ok hc rfl ⟨?_, ?_⟩ ?_
  · simp [Table.set, Setup.newCol]
  · simp [Table.set, temp_ne ok hc, h2]
  · intro d hd1 hd2
    simp [Table.set, hd1]

theorem does_put {k : Nat} {col : Column R} (e : S.table.cols c = some col) (hp : ph c = .copying k) :
    S.Does (putRow c k (S.view col k)) 1 ph () (Function.update ph c (.copying (k + 1))) := by
  refine does_call fun t h => ?_
  have ha := h.at_ c hc
  rw [hp] at ha
  obtain ⟨h1, h2⟩ := ha
  refine ⟨_, by simp only [h1]; rfl, ?_⟩
  refine h.update ok hc rfl ⟨?_, ?_⟩ ?_
  · simp only [Table.set, if_true, Setup.newCol, e, Option.map_some]
    congr 2
    · funext r
      by_cases hr : r = k
      · simp [hr]
      · have : r < k + 1 ↔ r < k := by omega
        simp [hr, this]
    · rw [List.range_succ, List.filterMap_append]
      rfl
  · simp [Table.set, temp_ne ok hc, h2]
  · intro d hd1 hd2
    simp [Table.set, hd1]

theorem does_remove (hp : ph c = .copying S.table.nrow) :
    S.Does (removeColumn (temp c)) 1 ph () (Function.update ph c .moved) := by
  refine does_call fun t h => ?_
  obtain ⟨col, e, -⟩ := ok.exist c hc
  have ha := h.at_ c hc
  rw [hp] at ha
  obtain ⟨h1, h2⟩ := ha
  refine ⟨_, by simp only [h2, e]; rfl, ?_⟩
  refine h.update ok hc rfl ⟨?_, ?_⟩ ?_
  · simp [Table.set, (temp_ne ok hc).symm, h1]
  · simp [Table.set]
  · intro d hd1 hd2
    simp [Table.set, hd2]

theorem does_open_orig {col : Column R} (e : S.table.cols c = some col) (hp : ph c = .orig) :
    S.Does (openColumn c (S.kind c)) 0 ph col ph := by
  refine does_query fun t h => ?_
  obtain ⟨col', e', hk⟩ := ok.exist c hc
  have : col = col' := Option.some.inj (e.symm.trans e')
  subst this
  have ha := h.at_ c hc
  rw [hp] at ha
  simp only [ha.1, e, hk, if_true]

theorem does_open_temp {col : Column R} (e : S.table.cols c = some col) (hp : ph c = .renamed ∨ ∃ k, ph c = .copying k) :
    S.Does (openColumn (temp c) (S.kind c)) 0 ph col ph := by
  refine does_query fun t h => ?_
  obtain ⟨col', e', hk⟩ := ok.exist c hc
  have : col = col' := Option.some.inj (e.symm.trans e')
  subst this
  have ha := h.at_ c hc
  have ht : t.cols (temp c) = some col := by
    rcases hp with hp | ⟨k, hp⟩ <;> rw [hp] at ha <;> exact ha.2.trans e
  simp only [ht, hk, if_true]

omit ok in
theorem does_open_new {k : Nat} (hp : ph c = .copying k) :
    S.Does (openColumn c (S.kind c)) 0 ph (S.newCol c k) ph := by
  refine does_query fun t h => ?_
  have ha := h.at_ c hc
  rw [hp] at ha
  simp only [ha.1]
  exact if_pos rfl

theorem does_copy {col : Column R} (e : S.table.cols c = some col) :
    ∀ n ph, ph c = .copying 0 →
      S.Does (copyValues S.view c (temp c) (S.kind c) n) n ph () (Function.update ph c (.copying n)) := by
  intro n
  induction n with
  | zero =>
    intro ph hp
    have : Function.update ph c (.copying 0) = ph := by rw [← hp]; exact Function.update_eq_self c ph
    rw [this]
    exact does_pure S ph ()
  | succ n ih =>
    intro ph hp
    have h1 := ih ph hp
    have h2 : S.Does (getRow S.view (temp c) (S.kind c) n) 0 (Function.update ph c (.copying n)) (S.view col n) _ :=
      does_bind (f := fun col => pure (S.view col n)) (does_open_temp ok hc e (Or.inr ⟨n, Function.update_self ..⟩))
        (does_pure S _ _)
    have h3 := does_put ok hc (ph := Function.update ph c (.copying n)) e (Function.update_self ..)
    rw [Function.update_idem] at h3
    have := does_bind h1 (f := fun _ => getRow S.view (temp c) (S.kind c) n >>= fun x => putRow c n x)
      (does_bind h2 h3)
    rw [show n + 1 = n + (0 + 1) by omega]
    exact this

theorem does_move (hp : ph c = .copying 0) :
    S.Does (moveColumnData S.view c (S.kind c)) (S.table.nrow + 1) ph () (Function.update ph c .moved) := by
  obtain ⟨col, e, -⟩ := ok.exist c hc
  have h1 := does_open_temp ok hc e (Or.inr ⟨0, hp⟩)
  have h2 := does_open_new hc hp
  have h3 : S.Does (query fun t => some t.nrow) 0 ph S.table.nrow ph := does_query fun t h => by rw [h.nrow]
  have h4 := does_copy ok hc e S.table.nrow ph hp
  have h5 := does_remove ok hc (ph := Function.update ph c (.copying S.table.nrow)) (Function.update_self ..)
  rw [Function.update_idem] at h5
  have := does_bind h1 (f := fun _ => openColumn c (S.kind c) >>= fun _ => (query fun t => some t.nrow) >>= fun n =>
    copyValues S.view c (temp c) (S.kind c) n >>= fun _ => removeColumn (temp c))
    (does_bind h2 (does_bind h3 (does_bind h4 h5)))
  rw [show S.table.nrow + 1 = 0 + (0 + (0 + (S.table.nrow + 1))) by omega]
  exact this

theorem does_prepare {col : Column R} (e : S.table.cols c = some col) (hm : col.manager ≠ S.manager)
    (hp : ph c = .orig) :
    S.Does (prepareReplacingColumn c S.manager (S.kind c)) 1 ph true (Function.update ph c .renamed) := by
  have h1 : S.Does (getStorageManager c (S.kind c)) 0 ph col.manager ph :=
    does_bind (f := fun col : Column R => (pure col.manager : Act R Arg)) (does_open_orig ok hc e hp) (does_pure S ph _)
  have h2 := does_rename ok hc hp
  have h3 := does_open_temp ok hc (ph := Function.update ph c .renamed) e (Or.inl (Function.update_self ..))
  have h4 : S.Does (renameColumn (temp c) c >>= fun _ => openColumn (temp c) (S.kind c) >>= fun _ => pure true)
      (1 + (0 + 0)) ph true (Function.update ph c .renamed) :=
    does_bind h2 (does_bind h3 (does_pure S _ _))
  have := does_bind h1 (f := fun m => if m ≠ S.manager then
      (renameColumn (temp c) c >>= fun _ => openColumn (temp c) (S.kind c) >>= fun _ => pure true)
    else pure false) (k' := 1) (b := true) (ph'' := Function.update ph c .renamed) (by rw [if_pos hm]; exact h4)
  rw [show 1 = 0 + 1 by omega]
  exact this

theorem does_prepare_same {col : Column R} (e : S.table.cols c = some col) (hm : col.manager = S.manager)
    (hp : ph c = .orig) :
    S.Does (prepareReplacingColumn c S.manager (S.kind c)) 0 ph false ph := by
  have h1 : S.Does (getStorageManager c (S.kind c)) 0 ph col.manager ph :=
    does_bind (f := fun col : Column R => (pure col.manager : Act R Arg)) (does_open_orig ok hc e hp) (does_pure S ph _)
  have := does_bind h1 (f := fun m => if m ≠ S.manager then
      (renameColumn (temp c) c >>= fun _ => openColumn (temp c) (S.kind c) >>= fun _ => pure true)
    else pure false) (k' := 0) (b := false) (ph'' := ph)
    (by rw [if_neg (fun h => h hm)]; exact does_pure S ph false)
  exact this

theorem does_init {col : Column R} (e : S.table.cols c = some col) (hm : col.manager = dysco)
    (hd : S.manager = default') (hp : ph c = .orig) :
    S.Does (initColumnWithDefaultStMan c (S.kind c)) 2 ph true (Function.update ph c (.copying 0)) := by
  have h1 : S.Does (getStorageManager c (S.kind c)) 0 ph col.manager ph :=
    does_bind (f := fun col : Column R => (pure col.manager : Act R Arg)) (does_open_orig ok hc e hp) (does_pure S ph _)
  have h2 := does_rename ok hc hp
  have h3 := does_open_temp ok hc (ph := Function.update ph c .renamed) e (Or.inl (Function.update_self ..))
  have h4 := does_add ok hc (ph := Function.update ph c .renamed) (Function.update_self ..)
  rw [Function.update_idem, hd] at h4
  have h5 : S.Does (renameColumn (temp c) c >>= fun _ => openColumn (temp c) (S.kind c) >>= fun _ =>
      addColumn c default' (S.kind c) >>= fun _ => pure true) (1 + (0 + (1 + 0))) ph true
      (Function.update ph c (.copying 0)) :=
    does_bind h2 (does_bind h3 (does_bind h4 (does_pure S _ _)))
  have := does_bind h1 (f := fun m => if m = dysco then
      (renameColumn (temp c) c >>= fun _ => openColumn (temp c) (S.kind c) >>= fun _ =>
        addColumn c default' (S.kind c) >>= fun _ => pure true)
    else pure false) (k' := 2) (b := true) (ph'' := Function.update ph c (.copying 0)) (by rw [if_pos hm]; exact h5)
  rw [show 2 = 0 + 2 by omega]
  exact this

theorem does_init_not {col : Column R} (e : S.table.cols c = some col) (hm : col.manager ≠ dysco)
    (hp : ph c = .orig) : S.Does (initColumnWithDefaultStMan c (S.kind c)) 0 ph false ph := by
  have h1 : S.Does (getStorageManager c (S.kind c)) 0 ph col.manager ph :=
    does_bind (f := fun col : Column R => (pure col.manager : Act R Arg)) (does_open_orig ok hc e hp) (does_pure S ph _)
  have := does_bind h1 (f := fun m => if m = dysco then
      (renameColumn (temp c) c >>= fun _ => openColumn (temp c) (S.kind c) >>= fun _ =>
        addColumn c default' (S.kind c) >>= fun _ => pure true)
    else pure false) (k' := 0) (b := false) (ph'' := ph) (by rw [if_neg hm]; exact does_pure S ph false)
  exact this

end ops

/-! ## All columns -/

/-- The column is not stored by the new manager yet. -/
def Setup.toMove (S : Setup R) (c : Arg) : Bool := (S.table.cols c).any fun col => decide (col.manager ≠ S.manager)

theorem does_prepareAll {S : Setup R} (ok : S.Ok) (hman : S.manager = dysco) (hk : S.kind = kindOf) :
    ∀ (l : List Arg) (b : Bool) (ph : Arg → Phase), l.Nodup → (∀ c ∈ l, c ∈ S.columns ∧ ph c = .orig) →
      S.Does (prepareAll l b) (l.filter S.toMove).length ph (l.any S.toMove || b)
        (fun c => if c ∈ l ∧ S.toMove c = true then .renamed else ph c) := by
  intro l
  induction l with
  | nil =>
    intro b ph _ _
    have : (fun c => if c ∈ ([] : List Arg) ∧ S.toMove c = true then Phase.renamed else ph c) = ph := by
      funext c; simp
    rw [this]
    exact does_pure S ph b
  | cons a l ih =>
    intro b ph hnd hl
    obtain ⟨hna, hnd⟩ := List.nodup_cons.1 hnd
    obtain ⟨hc, hp⟩ := hl a (by simp)
    obtain ⟨col, e, -⟩ := ok.exist a hc
    have hunf : prepareAll (R := R) (a :: l) b = prepareReplacingColumn a S.manager (S.kind a) >>= fun r =>
        prepareAll l (r || b) := by rw [hman, hk]; rfl
    rw [hunf]
    by_cases hm : S.toMove a = true
    · have hm' : col.manager ≠ S.manager := by simpa [Setup.toMove, e] using hm
      have h1 := does_prepare ok hc e hm' hp
      have h2 := ih (true || b) (Function.update ph a .renamed) hnd fun c hc' => ⟨(hl c (by simp [hc'])).1, by
        rw [Function.update_of_ne (fun h : c = a => hna (h ▸ hc'))]; exact (hl c (by simp [hc'])).2⟩
      have := does_bind (f := fun r => prepareAll l (r || b)) h1 h2
      have e1 : ((a :: l).filter S.toMove).length = 1 + (l.filter S.toMove).length := by
        simp [hm, Nat.add_comm]
      have e2 : ((a :: l).any S.toMove || b) = (l.any S.toMove || (true || b)) := by simp [hm]
      have e3 : (fun c => if c ∈ a :: l ∧ S.toMove c = true then Phase.renamed else ph c) =
          fun c => if c ∈ l ∧ S.toMove c = true then .renamed else Function.update ph a .renamed c := by
        funext c
        by_cases hca : c = a
        · subst hca; simp [hm]
        · simp [hca]
      rw [e1, e2, e3]
      exact this
    · have hm' : col.manager = S.manager := by simpa [Setup.toMove, e] using hm
      have h1 := does_prepare_same ok hc e hm' hp
      have h2 := ih (false || b) ph hnd fun c hc' => hl c (by simp [hc'])
      have := does_bind (f := fun r => prepareAll l (r || b)) h1 h2
      have e1 : ((a :: l).filter S.toMove).length = 0 + (l.filter S.toMove).length := by
        simp [hm]
      have e2 : ((a :: l).any S.toMove || b) = (l.any S.toMove || (false || b)) := by simp [hm]
      have e3 : (fun c => if c ∈ a :: l ∧ S.toMove c = true then Phase.renamed else ph c) =
          fun c => if c ∈ l ∧ S.toMove c = true then .renamed else ph c := by
        funext c
        by_cases hca : c = a
        · subst hca; simp [hm]
        · simp [hca]
      rw [e1, e2, e3]
      exact this

/-- A statement for every column that takes it from one phase to the next. -/
theorem does_forEach {S : Setup R} {f : Arg → Act R Unit} {k : Nat} {x y : Phase}
    (hf : ∀ c ∈ S.columns, ∀ ph : Arg → Phase, ph c = x → S.Does (f c) k ph () (Function.update ph c y)) :
    ∀ (l : List Arg) (ph : Arg → Phase), l.Nodup → (∀ c ∈ l, c ∈ S.columns ∧ ph c = x) →
      S.Does (forEach f l) (l.length * k) ph () (fun c => if c ∈ l then y else ph c) := by
  intro l
  induction l with
  | nil =>
    intro ph _ _
    have : (fun c => if c ∈ ([] : List Arg) then y else ph c) = ph := by funext c; simp
    rw [this, List.length_nil, Nat.zero_mul]
    exact does_pure S ph ()
  | cons a l ih =>
    intro ph hnd hl
    obtain ⟨hna, hnd⟩ := List.nodup_cons.1 hnd
    obtain ⟨hc, hp⟩ := hl a (by simp)
    have h1 := hf a hc ph hp
    have h2 := ih (Function.update ph a y) hnd fun c hc' => ⟨(hl c (by simp [hc'])).1, by
      rw [Function.update_of_ne (fun h : c = a => hna (h ▸ hc'))]; exact (hl c (by simp [hc'])).2⟩
    have := does_bind (f := fun _ => forEach f l) h1 h2
    have e3 : (fun c => if c ∈ a :: l then y else ph c) =
        fun c => if c ∈ l then y else Function.update ph a y c := by
      funext c
      by_cases hca : c = a
      · subst hca; simp
      · simp [hca]
    rw [e3, List.length_cons, Nat.add_mul, Nat.one_mul, Nat.add_comm]
    exact this

theorem like_start (S : Setup R) (ok : S.Ok) : S.Like (fun _ => .orig) S.table :=
  ⟨rfl, fun c hc => ⟨rfl, ok.free c hc⟩, fun _ _ _ => rfl⟩

/-- All columns are moved when none of them is stored by the new manager. -/
theorem does_compress {S : Setup R} (ok : S.Ok) (hman : S.manager = dysco) (hk : S.kind = kindOf)
    (hnd : S.columns.Nodup) (hne : S.columns ≠ []) (hm : ∀ c ∈ S.columns, S.toMove c = true) :
    S.Does (compressColumns S.view S.columns) (S.columns.length * (S.table.nrow + 3)) (fun _ => .orig) ()
      (fun c => if c ∈ S.columns then .moved else .orig) := by
  have h1 := does_prepareAll ok hman hk S.columns false (fun _ => .orig) hnd fun c hc => ⟨hc, rfl⟩
  have e1 : S.columns.filter S.toMove = S.columns := List.filter_eq_self.2 hm
  have e2 : (S.columns.any S.toMove || false) = true := by
    rw [Bool.or_false, List.any_eq_true]
    obtain ⟨c, l, h⟩ := List.exists_cons_of_ne_nil hne
    exact ⟨c, by simp [h], hm c (by simp [h])⟩
  rw [e1, e2] at h1
  have h2 := does_forEach (S := S) (f := fun a => addColumn a dysco (kindOf a)) (k := 1) (x := .renamed)
    (y := .copying 0) (fun c hc ph hp => by
      have := does_add ok hc hp
      rw [hman, hk] at this
      exact this)
    S.columns (fun c => if c ∈ S.columns ∧ S.toMove c = true then .renamed else .orig) hnd
    (fun c hc => ⟨hc, by rw [if_pos ⟨hc, hm c hc⟩]⟩)
  have h3 := does_forEach (S := S) (f := fun a => moveColumnData S.view a (kindOf a)) (k := S.table.nrow + 1)
    (x := .copying 0) (y := .moved) (fun c hc ph hp => by
      have := does_move ok hc hp
      rw [hk] at this
      exact this)
    S.columns (fun c => if c ∈ S.columns then .copying 0 else
      if c ∈ S.columns ∧ S.toMove c = true then .renamed else .orig) hnd
    (fun c hc => ⟨hc, by rw [if_pos hc]⟩)
  have h4 := does_bind (f := fun replaced => if replaced = true then
      (forEach (fun a => addColumn a dysco (kindOf a)) S.columns >>= fun _ =>
        forEach (fun a => moveColumnData S.view a (kindOf a)) S.columns)
    else pure ()) h1 (by
      rw [if_pos rfl]
      exact does_bind (f := fun _ => forEach (fun a => moveColumnData S.view a (kindOf a)) S.columns) h2 h3)
  have e4 : (fun c => if c ∈ S.columns then Phase.moved else if c ∈ S.columns then .copying 0 else
      if c ∈ S.columns ∧ S.toMove c = true then .renamed else .orig) =
      fun c => if c ∈ S.columns then .moved else .orig := by
    funext c
    by_cases hc : c ∈ S.columns <;> simp [hc]
  rw [e4] at h4
  have e5 : S.columns.length + (S.columns.length * 1 + S.columns.length * (S.table.nrow + 1)) =
      S.columns.length * (S.table.nrow + 3) := by
    simp only [Nat.mul_add]; omega
  rw [e5] at h4
  exact h4

theorem forEach_append (f : Arg → Act R Unit) (l l' : List Arg) :
    forEach f (l ++ l') = forEach f l >>= fun _ => forEach f l' := by
  induction l with
  | nil => rfl
  | cons a l ih =>
    funext n t
    show Act.bind (f a) (fun _ => forEach f (l ++ l')) n t =
      Act.bind (Act.bind (f a) fun _ => forEach f l) (fun _ => forEach f l') n t
    rw [ih]
    simp only [Act.bind]
    cases f a n t <;> rfl

end Dysco.Tools
