import Verif.CompressLemmas

/-!
# What dscompress does to a table

The examples are in `CompressSample.lean`.
-/

namespace Dysco.Compress
open Tools

/-- The cells of a column that is to be compressed. -/
def MS.cell (M : MS) (c : Arg) (r : Nat) : Cell :=
  if c = weightName then .float (M.weights r) else .complex (M.data c r)

/-- The table is determined by the phases of the columns. -/
theorem like_unique {R : Type} {S : Setup R} {ph : Arg → Phase} {t t' : Tools.Table R} (h : S.Like ph t)
    (h' : S.Like ph t') : t = t' := by
  have hc : ∀ d, t.cols d = t'.cols d := by
    intro d
    by_cases h1 : d ∈ S.columns
    · have a := h.at_ d h1
      have a' := h'.at_ d h1
      cases hp : ph d <;> rw [hp] at a a' <;> exact a.1.trans a'.1.symm
    · by_cases h2 : ∃ c ∈ S.columns, d = temp c
      · obtain ⟨c, hc, rfl⟩ := h2
        have a := h.at_ c hc
        have a' := h'.at_ c hc
        cases hp : ph c <;> rw [hp] at a a' <;> exact a.2.trans a'.2.symm
      · push Not at h2
        rw [h.rest d h1 h2, h'.rest d h1 h2]
  have hn := h.nrow.trans h'.nrow.symm
  cases t; cases t'
  simp only at hn hc
  rw [hn, funext hc]

theorem Input.kind {t : Tab} {columns : List Arg} {M : MS} (h : Input t columns M) {c : Arg} (hc : c ∈ columns) :
    Stores t c (kindOf c) (M.cell c) := by
  have hk : kindOf c = if c = weightName then .float else .complex := rfl
  rw [hk]
  unfold MS.cell
  by_cases hw : c = weightName
  · subst hw
    simp only [if_true]
    exact h.weights hc
  · simp only [hw, if_false]
    exact h.data c hc hw

/-- The result of the program: the columns were given to the new manager, row by row, in order. -/
structure Output (t t' : Tab) (columns : List Arg) (x : Arg → Nat → Cell) : Prop where
  nrow : t'.nrow = t.nrow
  moved : ∀ c ∈ columns, t'.cols (temp c) = none ∧ ∃ col, t'.cols c = some col ∧ col.manager = dysco ∧
    col.kind = kindOf c ∧ col.puts = (List.range t.nrow).map fun r => (r, x c r)
  rest : ∀ d, d ∉ columns → (∀ c ∈ columns, d ≠ temp c) → t'.cols d = t.cols d

section
variable {view : View Cell} (hv : Faithful view) {columns : List Arg} {t : Tab} {M : MS}
include hv

theorem compress_runs (h : Input t columns M) :
    ∃ t', Runs (compressColumns view columns) t () t' ∧ Output t t' columns M.cell := by
  by_cases hne : columns = []
  · subst hne
    exact ⟨t, runs_pure _ _, rfl, by simp, fun _ _ _ => rfl⟩
  · let S : Setup Cell := ⟨view, dysco, kindOf, columns, t⟩
    have ok : S.Ok := ⟨fun c hc => by
      obtain ⟨col, e1, e2, -⟩ := h.kind hc
      exact ⟨col, e1, e2⟩, h.free⟩
    have hmove : ∀ c ∈ S.columns, S.toMove c = true := by
      intro c hc
      obtain ⟨col, e1, -, e3, -⟩ := h.kind hc
      simp [Setup.toMove, S, e1, e3]
    have hd := does_compress ok rfl rfl h.nodup hne hmove
    obtain ⟨t', e, hl⟩ := (hd (S.columns.length * (S.table.nrow + 3)) t (like_start S ok)).1 le_rfl
    refine ⟨t', ⟨S.columns.length * (S.table.nrow + 3), fun n => ?_, fun n hn => ?_⟩, hl.nrow, fun c hc => ?_, hl.rest⟩
    · obtain ⟨t2, e2, hl2⟩ := (hd (n + S.columns.length * (S.table.nrow + 3)) t (like_start S ok)).1 (by omega)
      rw [like_unique hl hl2]
      rw [Nat.add_sub_cancel] at e2
      exact e2
    · obtain ⟨t2, -, e2, -⟩ := (hd n t (like_start S ok)).2 hn
      exact ⟨t2, e2⟩
    · obtain ⟨col, e1, -, e3, e4⟩ := h.kind hc
      have := hl.at_ c hc
      have hcs : c ∈ S.columns := hc
      rw [if_pos hcs] at this
      refine ⟨this.2, _, this.1, rfl, rfl, ?_⟩
      rw [newCol_eq (S := S) e1]
      refine List.map_congr_left fun r hr => ?_
      have hr := List.mem_range.1 hr
      show (r, view col r) = _
      rw [hv _ _ _ e3 (e4 r hr)]

/-- dscompress on a measurement set that passes its check: it ends, the columns are given to the new manager with NaN in
place of the flagged samples, each row once and in order, the temporary columns are gone, and all other columns are as
they were. -/
theorem dscompress_runs (h : Input t columns M) (hf : M.Flags columns t.nrow)
    (hc : check differs (M.rows t.nrow) = .ok ()) :
    ∃ t', Runs (dscompress view columns) t () t' ∧ Output t t' columns (M.flagged columns).cell := by
  obtain ⟨t1, r1, i1, n1, s1⟩ := flags_run hv columns h.nodup (fun _ h => h) t M h hf
  obtain ⟨t2, r2, o2⟩ := compress_runs hv i1
  have hk : Runs (checkOrder view) t1 () t1 := by
    have := checkOrder_eq hv i1
    rw [n1] at this
    have hr : (M.flagged columns).rows t.nrow = M.rows t.nrow := rfl
    rw [hr, hc] at this
    exact ⟨0, fun n => this n, fun n hn => by omega⟩
  refine ⟨t2, runs_bind r1 (runs_bind hk r2), o2.nrow.trans n1, fun c hc => ?_, fun d hd1 hd2 => ?_⟩
  · have := o2.moved c hc
    rw [n1] at this
    exact this
  · rw [o2.rest d hd1 hd2, s1 d (.inl hd1)]

/-- An irregular measurement set is refused, once its flagged samples were replaced: nothing else is changed. -/
theorem dscompress_throws (h : Input t columns M) (hf : M.Flags columns t.nrow)
    (hc : check differs (M.rows t.nrow) = .throws) :
    ∃ t' n0, Input t' columns (M.flagged columns) ∧ (∀ d, d ∉ columns ∨ d = weightName → t'.cols d = t.cols d) ∧
      ∀ n, n0 ≤ n → dscompress view columns n t = .threw t' := by
  obtain ⟨t1, ⟨k, r1, -⟩, i1, n1, s1⟩ := flags_run hv columns h.nodup (fun _ h => h) t M h hf
  refine ⟨t1, k, i1, s1, fun n hn => ?_⟩
  obtain ⟨j, rfl⟩ := Nat.exists_eq_add_of_le hn
  have := checkOrder_eq hv i1 j
  rw [n1, show (M.flagged columns).rows t.nrow = M.rows t.nrow from rfl, hc] at this
  show (forEach (flagColumn view) columns >>= fun _ => checkOrder view >>= fun _ => compressColumns view columns)
    (k + j) t = _
  rw [Nat.add_comm k j, bind_done (r1 j), bind_threw this]

/-! ## Too few flags -/

/-- The program ends in undefined behaviour. -/
def Breaks {A : Type} (m : Act Cell A) (t : Tab) : Prop := ∃ k, ∀ n, m (n + k) t = .ub

omit hv in
theorem Breaks.first {A B : Type} {m : Act Cell A} {f : A → Act Cell B} (h : Breaks m t) : Breaks (m >>= f) t := by
  obtain ⟨k, h⟩ := h
  exact ⟨k, fun n => bind_ub (h n)⟩

omit hv in
theorem Breaks.after {A B : Type} {m : Act Cell A} {f : A → Act Cell B} {t' : Tab} {a : A} (h : Runs m t a t')
    (h' : Breaks (f a) t') : Breaks (m >>= f) t := by
  obtain ⟨k, h, -⟩ := h
  obtain ⟨k', h'⟩ := h'
  exact ⟨k' + k, fun n => by rw [← Nat.add_assoc, bind_done (h (n + k')), h' n]⟩

theorem flagColumn_breaks (h : Input t columns M) {c : Arg} (hc : c ∈ columns) (hw : c ≠ weightName) {r : Nat}
    (hr : r < t.nrow) (hs : (M.flags r).length < (M.data c r).length) : Breaks (flagColumn view c) t := by
  classical
  obtain ⟨col, e1, e2, e3, e4⟩ := h.data c hc hw
  obtain ⟨flag, f1, f2, f3, f4⟩ := h.flags
  have hne : c ≠ "FLAG".toList := (h.data c hc hw).ne h.flags (by decide)
  have hex : ∃ r, r < t.nrow ∧ (M.flags r).length < (M.data c r).length := ⟨r, hr, hs⟩
  obtain ⟨g1, g2⟩ := Nat.find_spec hex
  have hmin := fun {m} => Nat.find_min hex (m := m)
  generalize Nat.find hex = i at g1 g2 hmin
  have hok : ∀ r, r < i → (M.data c r).length ≤ (M.flags r).length := by
    intro r hr
    have := hmin hr
    simp only [not_and, not_lt] at this
    exact this (by omega)
  obtain ⟨col', r1, k1, m1, d1⟩ := flagRows_runs hv (n := i) e1 e2 e3 (fun r hr => e4 r (by omega)) hne f1 f2 f3
    (fun r hr => f4 r (by omega)) hok i le_rfl
  have hrow : Breaks (flagRow view c i) { t with cols := Function.update t.cols c (some col') } :=
    ⟨0, fun n => flagRow_short hv (D := M.data c) (F := M.flags) (col := col') (flag := flag)
      (Function.update_self ..) k1 (by rw [m1]; exact e3) (by rw [d1, if_neg (by omega)]; exact e4 i g1)
      (by rw [← f1]; exact Function.update_of_ne (Ne.symm hne) ..) f2 f3 (f4 i g1) g2 _⟩
  have hrows : ∀ n, i < n → Breaks (flagRows view c n) t := by
    intro n hn
    induction n with
    | zero => omega
    | succ n ih =>
      by_cases hi : i < n
      · exact (ih hi).first
      · obtain rfl : i = n := by omega
        exact Breaks.after r1 hrow
  unfold flagColumn
  rw [if_neg hw]
  exact Breaks.after (runs_open e1 e2) (Breaks.after (runs_open f1 f2) (Breaks.after (runs_query rfl)
    (hrows t.nrow g1)))

/-- With fewer flags than samples in some row of a column, the program reads past the end of the flags. -/
theorem dscompress_breaks (h : Input t columns M) (hf : ¬ M.Flags columns t.nrow) : Breaks (dscompress view columns) t := by
  have key : ∀ (l : List Arg), l.Nodup → (∀ c ∈ l, c ∈ columns) → ∀ (t : Tab) (M : MS), Input t columns M →
      (∃ c ∈ l, c ≠ weightName ∧ ∃ r, r < t.nrow ∧ (M.flags r).length < (M.data c r).length) →
      Breaks (forEach (flagColumn view) l) t := by
    intro l
    induction l with
    | nil => intro _ _ t M _ ⟨c, hc, _⟩; simp at hc
    | cons c l ih =>
      intro hnd hl t M h hx
      by_cases hc : c ≠ weightName ∧ ∃ r, r < t.nrow ∧ (M.flags r).length < (M.data c r).length
      · obtain ⟨hw, r, hr, hs⟩ := hc
        exact (flagColumn_breaks hv h (hl c (by simp)) hw hr hs).first
      · have hnd' := List.nodup_cons.1 hnd
        have hin : Input t [c] M := by
          refine ⟨by simp, fun d hd => ?_, fun d hd hdw => ?_, fun hd => ?_, h.flags, h.time, h.field, h.desc, h.ant1,
            h.ant2⟩
          · obtain rfl := List.mem_singleton.1 hd; exact h.free _ (hl _ (by simp))
          · obtain rfl := List.mem_singleton.1 hd; exact h.data _ (hl _ (by simp)) hdw
          · obtain rfl := List.mem_singleton.1 hd; exact h.weights (hl _ (by simp))
        have hfc : M.Flags [c] t.nrow := by
          intro d hd hdw r hr
          obtain rfl := List.mem_singleton.1 hd
          by_contra hlt
          exact hc ⟨hdw, r, hr, by omega⟩
        obtain ⟨t1, r1, i1, n1, s1⟩ := flagColumn_runs hv hin hfc (c := c) (by simp)
        have i1' : Input t1 columns (M.flagged [c]) := by
          have keep : ∀ {d : Arg} {k : Kind} {x : Nat → Cell}, Stores t d k x → d ≠ c → Stores t1 d k x :=
            fun hs hd => hs.same (s1 _ (.inl hd)) n1
          refine ⟨h.nodup, fun d hd => ?_, fun d hd hdw => ?_, fun hx => ?_, i1.flags, i1.time, i1.field, i1.desc,
            i1.ant1, i1.ant2⟩
          · by_cases hdc : temp d = c
            · exfalso
              obtain ⟨col, e, -⟩ := h.kind (hl c (by simp))
              rw [← hdc, h.free d hd] at e
              cases e
            · rw [s1 _ (.inl hdc)]; exact h.free d hd
          · by_cases hdc : d = c
            · subst hdc; exact i1.data d (by simp) hdw
            · refine (keep (h.data d hd hdw) hdc).congr ?_
              funext r
              simp [MS.flagged, hdc]
          · exact (h.weights hx).same (s1 _ (.inr rfl)) n1
        refine Breaks.after r1 (ih hnd'.2 (fun d hd => hl d (by simp [hd])) t1 _ i1' ?_)
        obtain ⟨d, hd, hdw, r, hr, hs⟩ := hx
        have hdl : d ∈ l := by
          rcases List.mem_cons.1 hd with rfl | hd
          · exact absurd ⟨hdw, r, hr, hs⟩ hc
          · exact hd
        refine ⟨d, hdl, hdw, r, by rw [n1]; exact hr, ?_⟩
        have : d ≠ c := by rintro rfl; exact hnd'.1 hdl
        simpa [MS.flagged, this] using hs
  refine (key columns h.nodup (fun _ h => h) t M h ?_).first
  unfold MS.Flags at hf
  push Not at hf
  exact hf

/-- The check itself can read past the end of the first block, or of an empty table (`check_ub_iff`). -/
theorem dscompress_check_breaks (h : Input t columns M) (hf : M.Flags columns t.nrow)
    (hc : check differs (M.rows t.nrow) = .ub) : Breaks (dscompress view columns) t := by
  obtain ⟨t1, r1, i1, n1, -⟩ := flags_run hv columns h.nodup (fun _ h => h) t M h hf
  refine Breaks.after r1 (Breaks.first ⟨0, fun n => ?_⟩)
  have := checkOrder_eq hv i1 n
  rwa [n1, show (M.flagged columns).rows t.nrow = M.rows t.nrow from rfl, hc] at this

end

end Dysco.Compress
