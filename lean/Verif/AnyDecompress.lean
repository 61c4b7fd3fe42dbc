import Verif.AnyArgs

/-!
# decompress on any table: C114

C57 assumes that both columns exist with their types and that the temporary names are free. Here nothing is assumed.
-/

namespace Dysco.Tools

variable {R A B : Type}

/-- How far a column `c` is, in the table `t` that was `t0`. -/
def InPhase (view : View R) (t0 : Table R) (kind : Kind) (c : Arg) (t : Table R) : Phase → Prop
  | .orig => t.cols c = t0.cols c ∧ t.cols (temp c) = t0.cols (temp c)
  | .renamed => ∃ old, t0.cols c = some old ∧ old.kind = kind ∧ old.manager = dysco ∧ t0.cols (temp c) = none ∧
      t.cols c = none ∧ t.cols (temp c) = some old
  | .copying k => ∃ old, t0.cols c = some old ∧ old.kind = kind ∧ old.manager = dysco ∧ t0.cols (temp c) = none ∧
      t.cols c = some (copied view default' kind k old) ∧ t.cols (temp c) = some old
  | .moved => ∃ old, t0.cols c = some old ∧ old.kind = kind ∧ old.manager = dysco ∧ t0.cols (temp c) = none ∧
      t.cols c = some (copied view default' kind t0.nrow old) ∧ t.cols (temp c) = none

theorem InPhase.frame {view : View R} {t0 : Table R} {kind : Kind} {c : Arg} {t t' : Table R} {p : Phase}
    (h : InPhase view t0 kind c t p) (h1 : t'.cols c = t.cols c) (h2 : t'.cols (temp c) = t.cols (temp c)) :
    InPhase view t0 kind c t' p := by
  cases p <;> simpa only [InPhase, h1, h2] using h

/-- Column `c` with its type, and another column `d`. -/
structure Two (c d : Arg) : Prop where
  ne : c ≠ d
  ct : c ≠ temp d
  dt : d ≠ temp c

/-- The phases of two columns; the rest is untouched. -/
structure Pair (view : View R) (t0 : Table R) (c : Arg) (kc : Kind) (d : Arg) (kd : Kind) (pc pd : Phase) (t : Table R) :
    Prop where
  nrow : t.nrow = t0.nrow
  fst : InPhase view t0 kc c t pc
  snd : InPhase view t0 kd d t pd
  rest : ∀ x, x ≠ c → x ≠ temp c → x ≠ d → x ≠ temp d → t.cols x = t0.cols x

/-- Every column is still there, under its name or its temporary name, or one of the two was copied entirely. -/
def Kept2 (view : View R) (t0 : Table R) (c : Arg) (kc : Kind) (d : Arg) (kd : Kind) (t : Table R) : Prop :=
  t.nrow = t0.nrow ∧ ∀ x old, t0.cols x = some old → t.cols x = some old ∨
    (x = c ∨ x = d) ∧ t.cols (temp x) = some old ∨
    x = c ∧ t.cols c = some (copied view default' kc t0.nrow old) ∨
    x = d ∧ t.cols d = some (copied view default' kd t0.nrow old)

variable {view : View R} {t0 : Table R} {c d : Arg} {kc kd : Kind} {pc pd : Phase}

theorem Pair.symm {t : Table R} (h : Pair view t0 c kc d kd pc pd t) : Pair view t0 d kd c kc pd pc t :=
  ⟨h.nrow, h.snd, h.fst, fun x h1 h2 h3 h4 => h.rest x h3 h4 h1 h2⟩

theorem InPhase.kept {kind : Kind} {p : Phase} {t : Table R} (h : InPhase view t0 kind c t p) {old : Column R}
    (e : t0.cols c = some old) : t.cols c = some old ∨ t.cols (temp c) = some old ∨
      t.cols c = some (copied view default' kind t0.nrow old) := by
  cases p with
  | orig => exact Or.inl (h.1.trans e)
  | renamed =>
    obtain ⟨o, e', -, -, -, -, h2⟩ := h
    exact Or.inr (Or.inl (h2.trans (e'.symm.trans e)))
  | copying k =>
    obtain ⟨o, e', -, -, -, -, h2⟩ := h
    exact Or.inr (Or.inl (h2.trans (e'.symm.trans e)))
  | moved =>
    obtain ⟨o, e', -, -, -, h2, -⟩ := h
    obtain rfl := Option.some.inj (e'.symm.trans e)
    exact Or.inr (Or.inr h2)

theorem InPhase.kept_temp {kind : Kind} {p : Phase} {t : Table R} (h : InPhase view t0 kind c t p) {old : Column R}
    (e : t0.cols (temp c) = some old) : t.cols (temp c) = some old := by
  cases p with
  | orig => exact h.2.trans e
  | renamed => obtain ⟨o, -, -, -, hf, -⟩ := h; rw [hf] at e; cases e
  | copying k => obtain ⟨o, -, -, -, hf, -⟩ := h; rw [hf] at e; cases e
  | moved => obtain ⟨o, -, -, -, hf, -⟩ := h; rw [hf] at e; cases e

theorem Pair.kept {t : Table R} (h : Pair view t0 c kc d kd pc pd t) : Kept2 view t0 c kc d kd t := by
  refine ⟨h.nrow, fun x old e => ?_⟩
  by_cases h1 : x = c
  · subst h1
    rcases h.fst.kept e with h1 | h1 | h1
    · exact Or.inl h1
    · exact Or.inr (Or.inl ⟨Or.inl rfl, h1⟩)
    · exact Or.inr (Or.inr (Or.inl ⟨rfl, h1⟩))
  · by_cases h2 : x = d
    · subst h2
      rcases h.snd.kept e with h1 | h1 | h1
      · exact Or.inl h1
      · exact Or.inr (Or.inl ⟨Or.inr rfl, h1⟩)
      · exact Or.inr (Or.inr (Or.inr ⟨rfl, h1⟩))
    · by_cases h3 : x = temp c
      · subst h3; exact Or.inl (h.fst.kept_temp e)
      · by_cases h4 : x = temp d
        · subst h4; exact Or.inl (h.snd.kept_temp e)
        · exact Or.inl ((h.rest x h1 h3 h2 h4).trans e)

/-- Only `c` and its temporary column changed. -/
theorem Pair.move {t t' : Table R} (w : Two c d) (h : Pair view t0 c kc d kd pc pd t) (hn : t'.nrow = t.nrow)
    {p : Phase} (hp : InPhase view t0 kc c t' p) (ho : ∀ x, x ≠ c → x ≠ temp c → t'.cols x = t.cols x) :
    Pair view t0 c kc d kd p pd t' where
  nrow := hn.trans h.nrow
  fst := hp
  snd := h.snd.frame (ho d w.ne.symm w.dt) (ho (temp d) w.ct.symm fun e => w.ne (temp_inj e).symm)
  rest := fun x h1 h2 h3 h4 => (ho x h1 h2).trans (h.rest x h1 h2 h3 h4)

/-- `InitColumnWithDefaultStMan` on any table. -/
theorem safe_init {K : Table R → Prop} (w : Two c d) (hK : ∀ p t, Pair view t0 c kc d kd p pd t → K t) :
    Safe K (Pair view t0 c kc d kd .orig pd) (initColumnWithDefaultStMan c kc) fun b t =>
      Pair view t0 c kc d kd (if b = true then .copying 0 else .orig) pd t ∧
        ∃ old, t0.cols c = some old ∧ old.kind = kc ∧ (b = true ↔ old.manager = dysco) := by
  unfold initColumnWithDefaultStMan getStorageManager
  refine Safe.bind (Q := fun m t => Pair view t0 c kc d kd .orig pd t ∧
      ∃ old, t0.cols c = some old ∧ old.kind = kc ∧ old.manager = m)
    (Safe.bind (safe_open (hK _) c kc) fun col => Safe.pure fun t ⟨h, e, hk⟩ =>
      ⟨h, col, h.fst.1.symm.trans e, hk, rfl⟩) fun m => ?_
  by_cases hm : m = dysco
  · subst hm
    simp only [if_true]
    refine Safe.bind (Q := fun _ t => Pair view t0 c kc d kd .renamed pd t) (Safe.call (fun t h => hK _ t h.1) ?_) fun _ =>
      Safe.bind (safe_open (hK _) _ _) fun _ =>
        Safe.bind (Q := fun _ t => Pair view t0 c kc d kd (.copying 0) pd t) (Safe.call (fun t h => hK _ t h.1) ?_) fun _ =>
          Safe.pure fun t h => ⟨h, ?_⟩
    · rintro t t' ⟨h, old, e, hk, hm⟩ et
      have e1 : t.cols c = some old := h.fst.1.trans e
      cases hf : t.cols (temp c) with
      | some x => simp [e1, hf] at et
      | none =>
        simp only [e1, hf, Option.some.injEq] at et
        subst et
        exact h.move w (by rfl) (p := .renamed) ⟨old, e, hk, hm, h.fst.2.symm.trans hf, by simp [Table.set], by simp [Table.set, temp_ne_self]⟩
          fun x h1 h2 => by simp [Table.set, h1, h2]
    · rintro t t' ⟨h, -⟩ et
      obtain ⟨old, e, hk, hm, hf, e1, e2⟩ := h.fst
      simp only [e1, Option.some.injEq] at et
      subst et
      exact h.move w (by rfl) (p := .copying 0) ⟨old, e, hk, hm, hf, by simp [Table.set, copied], by simp [Table.set, temp_ne_self, e2]⟩
        fun x h1 h2 => by simp [Table.set, h1]
    · obtain ⟨old, e, hk, hm, -⟩ := h.fst
      exact ⟨old, e, hk, by simp [hm]⟩
  · simp only [hm, if_false]
    exact Safe.pure fun t ⟨h, old, e, hk, hm'⟩ => ⟨h, old, e, hk, by simp [hm', hm]⟩

theorem copied_step (manager : Arg) (kind : Kind) (src : Column R) (k : Nat) :
    copied view manager kind (k + 1) src =
      { copied view manager kind k src with
        rows := fun j => if j = k then some (view src k) else (copied view manager kind k src).rows j
        puts := (copied view manager kind k src).puts ++ [(k, view src k)] } := by
  simp only [copied, List.range_succ, List.map_append, List.map_cons, List.map_nil, Column.mk.injEq, true_and, and_true]
  funext j
  by_cases h : j = k
  · simp [h]
  · by_cases h2 : j < k
    · simp [h, h2, Nat.lt_succ_of_lt h2]
    · have : ¬j < k + 1 := by omega
      simp [h, h2, this]

theorem safe_copyValues {K : Table R → Prop} (w : Two c d) (hK : ∀ p t, Pair view t0 c kc d kd p pd t → K t) (n : Nat) :
    Safe K (Pair view t0 c kc d kd (.copying 0) pd) (copyValues view c (temp c) kc n)
      fun _ t => Pair view t0 c kc d kd (.copying n) pd t := by
  induction n with
  | zero => exact Safe.pure fun t h => h
  | succ n ih =>
    refine Safe.bind ih fun _ => ?_
    unfold getRow
    refine Safe.bind (Q := fun x t => Pair view t0 c kc d kd (.copying n) pd t ∧ ∃ src, t.cols (temp c) = some src ∧ x = view src n)
      (Safe.bind (safe_open (hK _) _ _) fun col => Safe.pure fun t ⟨h, e, _⟩ => ⟨h, col, e, rfl⟩) fun x =>
      Safe.call (fun t h => hK _ t h.1) ?_
    rintro t t' ⟨h, src, es, rfl⟩ et
    obtain ⟨old, e, hk, hm, hf, e1, e2⟩ := h.fst
    obtain rfl := Option.some.inj (es.symm.trans e2)
    simp only [e1, Option.some.injEq] at et
    subst et
    refine h.move w (by rfl) (p := .copying (n + 1)) ⟨src, e, hk, hm, hf, ?_, by simp [Table.set, temp_ne_self, e2]⟩
      fun x h1 h2 => by simp [Table.set, h1]
    rw [copied_step]
    simp [Table.set]

/-- `MoveColumnData` on any table. -/
theorem safe_moveData {K : Table R → Prop} (w : Two c d) (hK : ∀ p t, Pair view t0 c kc d kd p pd t → K t) :
    Safe K (Pair view t0 c kc d kd (.copying 0) pd) (moveColumnData view c kc)
      fun _ t => Pair view t0 c kc d kd .moved pd t := by
  unfold moveColumnData
  refine Safe.bind (safe_open (hK _) _ _) fun _ => Safe.bind (safe_open (fun t h => hK _ t h.1) _ _) fun _ => ?_
  refine Safe.bind (Q := fun n t => Pair view t0 c kc d kd (.copying 0) pd t ∧ n = t0.nrow)
    (Safe.query (fun t h => hK _ t h.1.1) fun t n h e => ⟨h.1.1, by rw [← Option.some.inj e, h.1.1.nrow]⟩) fun n => ?_
  refine Safe.bind (Q := fun _ t => Pair view t0 c kc d kd (.copying t0.nrow) pd t) ?_ fun _ => Safe.call (hK _) ?_
  · refine Safe.fix fun t1 ⟨h, hn⟩ => ?_
    subst hn
    exact (safe_copyValues w hK t0.nrow).weaken (fun t ht => ht ▸ h) fun _ _ h => h
  · intro t t' h et
    obtain ⟨old, e, hk, hm, hf, e1, e2⟩ := h.fst
    simp only [e2, Option.some.injEq] at et
    subst et
    exact h.move w (by rfl) (p := .moved) ⟨old, e, hk, hm, hf, by simp [Table.set, (temp_ne_self c).symm, e1], by simp [Table.set]⟩
      fun x h1 h2 => by simp [Table.set, h2]

theorem two_dw : Two dataName weightName := ⟨dataName_ne, by unfold dataName temp weightName; simp, weight_ne_temp⟩

theorem two_wd : Two weightName dataName := ⟨two_dw.ne.symm, two_dw.dt, two_dw.ct⟩

/-- The phase of a column before and after the data is moved. -/
def begun (b : Bool) : Phase := if b = true then .copying 0 else .orig

/-- See `begun`. -/
def ended (b : Bool) : Phase := if b = true then .moved else .orig

theorem safe_onlyIf {K : Table R → Prop} (w : Two c d) (hK : ∀ p t, Pair view t0 c kc d kd p pd t → K t) (b : Bool) :
    Safe K (Pair view t0 c kc d kd (begun b) pd) (onlyIf b (moveColumnData view c kc))
      fun _ t => Pair view t0 c kc d kd (ended b) pd t := by
  cases b with
  | true => exact safe_moveData w hK
  | false => exact Safe.pure fun t h => h

theorem InPhase.ended {kind : Kind} {t : Table R} {b : Bool} (h : InPhase view t0 kind c t (ended b)) {old : Column R}
    (e : t0.cols c = some old) (hb : b = true ↔ old.manager = dysco) :
    t.cols c = some (decompressed view kind t0.nrow old) ∧ t.cols (temp c) = t0.cols (temp c) := by
  cases b with
  | true =>
    obtain ⟨o, e', -, -, hf, h1, h2⟩ := h
    obtain rfl := Option.some.inj (e'.symm.trans e)
    exact ⟨by rw [h1, decompressed, if_pos (hb.1 rfl)], h2.trans hf.symm⟩
  | false =>
    have : old.manager ≠ dysco := fun hm => by simpa using hb.2 hm
    exact ⟨by rw [decompressed, if_neg this, h.1, e], h.2⟩

/-- C114: decompress on any table, stopped at any point or not: when it throws or is stopped, every column of the table
is still there, under its name or its temporary name, or it is DATA or WEIGHT_SPECTRUM and was copied entirely; when it
finishes, both columns exist, those that DyscoStMan stored are in the default manager, and nothing else changed. -/
theorem decompress_any (view : View R) (t0 : Table R) (n : Nat) :
    match decompressColumns view n t0 with
    | .done b _ t => ∃ d w, t0.cols dataName = some d ∧ d.kind = .complex ∧ t0.cols weightName = some w ∧
        w.kind = .float ∧ (b = true ↔ d.manager = dysco ∨ w.manager = dysco) ∧ t.nrow = t0.nrow ∧
        t.cols dataName = some (decompressed view .complex t0.nrow d) ∧
        t.cols weightName = some (decompressed view .float t0.nrow w) ∧
        ∀ x, x ≠ dataName → x ≠ weightName → t.cols x = t0.cols x
    | .threw t => Kept2 view t0 dataName .complex weightName .float t
    | .stopped t => Kept2 view t0 dataName .complex weightName .float t
    | .ub => False := by
  have h : Safe (Kept2 view t0 dataName .complex weightName .float)
      (Pair view t0 dataName .complex weightName .float .orig .orig) (decompressColumns view)
      fun b t => ∃ d w, t0.cols dataName = some d ∧ d.kind = .complex ∧ t0.cols weightName = some w ∧
        w.kind = .float ∧ (b = true ↔ d.manager = dysco ∨ w.manager = dysco) ∧ t.nrow = t0.nrow ∧
        t.cols dataName = some (decompressed view .complex t0.nrow d) ∧
        t.cols weightName = some (decompressed view .float t0.nrow w) ∧
        ∀ x, x ≠ dataName → x ≠ weightName → t.cols x = t0.cols x := by
    unfold decompressColumns
    refine Safe.bind (safe_init two_dw fun p t h => h.kept) fun bd => ?_
    refine Safe.fix fun t1 ⟨h1, d, ed, kd, hd⟩ => ?_
    refine Safe.bind ((safe_init two_wd (pd := begun bd) fun p t h => h.symm.kept).weaken (fun t ht => ht ▸ h1.symm)
      fun _ _ h => h) fun bw => ?_
    refine Safe.fix fun t2 ⟨h2, w, ew, kw, hw⟩ => ?_
    refine Safe.bind ((safe_onlyIf two_dw (pd := begun bw) (fun p t h => h.kept) bd).weaken (fun t ht => ht ▸ h2.symm)
      fun _ _ h => h) fun _ => ?_
    refine Safe.bind ((safe_onlyIf two_wd (pd := ended bd) (fun p t h => h.symm.kept) bw).weaken (fun t ht => ht.symm)
      fun _ _ h => h) fun _ => Safe.pure fun t h => ?_
    obtain ⟨g1, g2⟩ := h.snd.ended ed hd
    obtain ⟨g3, g4⟩ := h.fst.ended ew hw
    refine ⟨d, w, ed, kd, ew, kw, by rw [Bool.or_eq_true, hd, hw], h.nrow, g1, g3, fun x hx1 hx2 => ?_⟩
    by_cases hx3 : x = temp dataName
    · rw [hx3, g2]
    · by_cases hx4 : x = temp weightName
      · rw [hx4, g4]
      · exact h.rest x hx2 hx4 hx1 hx3
  have h1 := h n t0 ⟨rfl, ⟨rfl, rfl⟩, ⟨rfl, rfl⟩, fun _ _ _ _ _ => rfl⟩
  cases e : decompressColumns view n t0 with
  | done a k t => rw [e] at h1; exact h1
  | threw t => rw [e] at h1; exact h1
  | stopped t => rw [e] at h1; exact h1
  | ub => rw [e] at h1; exact h1

/-- A table that has both columns, and also a column with the temporary name of DATA. -/
def clash : Table Nat :=
  ⟨1, fun x => if x = "DATA".toList then some ⟨dysco, .complex, fun _ => some 7, []⟩
    else if x = "WEIGHT_SPECTRUM".toList then some ⟨dysco, .float, fun _ => some 8, []⟩
    else if x = "TEMP_DATA".toList then some ⟨default', .complex, fun _ => some 9, []⟩ else none⟩

/-- The tool throws and changes nothing. -/
example : decompressColumns (fun c k => (c.rows k).getD 0) 100 clash = .threw clash := rfl

/-- Without that column it finishes. -/
example : ∃ k t, decompressColumns (fun c k => (c.rows k).getD 0) 100 (clash.set "TEMP_DATA".toList none) = .done true k t ∧
    (t.cols "WEIGHT_SPECTRUM".toList).map (fun c => (c.manager, c.rows 0)) = some (default', some 8) := ⟨_, _, rfl, rfl⟩

end Dysco.Tools
