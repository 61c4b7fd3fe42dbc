import Verif.CompressModel
import Verif.CmdProps
import Verif.TableProps

/-! # Lemmas on dscompress -/

namespace Dysco.Compress
open Tools

variable {A B : Type}

/-! ## Programs that end -/

/-- The program makes a number of calls and ends with this result and table; when it is stopped before, it does not end. -/
def Runs (m : Act Cell A) (t : Tab) (a : A) (t' : Tab) : Prop :=
  ∃ k, (∀ n, m (n + k) t = .done a n t') ∧ ∀ n, n < k → ∃ t'', m n t = .stopped t''

theorem runs_pure (t : Tab) (a : A) : Runs (pure a : Act Cell A) t a t :=
  ⟨0, fun _ => rfl, fun n h => by omega⟩

theorem bind_stopped {m : Act Cell A} {f : A → Act Cell B} {n : Nat} {t t' : Tab} (h : m n t = .stopped t') :
    (m >>= f) n t = .stopped t' := by
  show Act.bind m f n t = _
  rw [Act.bind, h]

theorem bind_ub {m : Act Cell A} {f : A → Act Cell B} {n : Nat} {t : Tab} (h : m n t = .ub) :
    (m >>= f) n t = .ub := by
  show Act.bind m f n t = _
  rw [Act.bind, h]

theorem runs_bind {m : Act Cell A} {f : A → Act Cell B} {t t' t'' : Tab} {a : A} {b : B} (h : Runs m t a t')
    (h' : Runs (f a) t' b t'') : Runs (m >>= f) t b t'' := by
  obtain ⟨k, h1, h2⟩ := h
  obtain ⟨k', h1', h2'⟩ := h'
  refine ⟨k' + k, fun n => ?_, fun n hn => ?_⟩
  · rw [← Nat.add_assoc, bind_done (h1 (n + k')), h1' n]
  · by_cases hk : n < k
    · obtain ⟨u, hu⟩ := h2 n hk
      exact ⟨u, bind_stopped hu⟩
    · obtain ⟨j, rfl⟩ := Nat.exists_eq_add_of_le (Nat.le_of_not_lt hk)
      obtain ⟨u, hu⟩ := h2' j (by omega)
      refine ⟨u, ?_⟩
      rw [Nat.add_comm k j, bind_done (h1 j), hu]

theorem runs_query {f : Tab → Option A} {t : Tab} {a : A} (h : f t = some a) : Runs (query f) t a t :=
  ⟨0, fun n => by simp only [query, h, Nat.add_zero], fun n h => by omega⟩

theorem runs_open {t : Tab} {name : Arg} {kind : Kind} {col : TCol} (h : t.cols name = some col)
    (hk : col.kind = kind) : Runs (openColumn name kind) t col t :=
  runs_query (by simp [h, hk])

theorem runs_get {view : View Cell} {t : Tab} {name : Arg} {kind : Kind} {col : TCol} (row : Nat)
    (h : t.cols name = some col) (hk : col.kind = kind) : Runs (getRow view name kind row) t (view col row) t :=
  runs_bind (f := fun c => pure (view c row)) (runs_open h hk) (runs_pure _ _)

theorem runs_call {f : Tab → Option (Tab)} {t t' : Tab} (h : f t = some t') :
    Runs (call f) t () t' :=
  ⟨1, fun n => by simp only [call, h], fun n hn => ⟨t, by
    obtain rfl : n = 0 := by omega
    rfl⟩⟩

/-- The outcome is unique. -/
theorem Runs.done {m : Act Cell A} {t t' u : Tab} {a b : A} {n n' : Nat} (h : Runs m t a t')
    (e : m n t = .done b n' u) : b = a ∧ u = t' := by
  obtain ⟨k, h1, h2⟩ := h
  by_cases hk : n < k
  · obtain ⟨u', hu⟩ := h2 n hk
    rw [hu] at e; cases e
  · obtain ⟨j, rfl⟩ := Nat.exists_eq_add_of_le (Nat.le_of_not_lt hk)
    rw [Nat.add_comm k j, h1 j] at e
    cases e
    exact ⟨rfl, rfl⟩

/-! ## Flags -/

/-- The samples with NaN in place of the flagged ones. -/
def masked (f : List Bool) (d : List Cx) : List Cx := List.zipWith (fun b x => if b then nanCx else x) f d

theorem masked_length {f : List Bool} {d : List Cx} (h : d.length ≤ f.length) : (masked f d).length = d.length := by
  simp [masked]; omega

theorem nanRow_masked : ∀ (d : List Cx) (f : List Bool), d.length ≤ f.length →
    ∃ ch, nanRow nanCx d f = some (masked f d, ch) ∧ (ch = false → masked f d = d)
  | [], _, _ => ⟨false, by simp [nanRow, masked], fun _ => by simp [masked]⟩
  | x :: d, [], h => by simp at h
  | x :: d, b :: f, h => by
    obtain ⟨ch, e, hc⟩ := nanRow_masked d f (by simpa using h)
    cases b
    · refine ⟨ch, by simp [nanRow, e, masked], fun h0 => ?_⟩
      have := hc h0
      simp only [masked, List.zipWith_cons_cons] at this ⊢
      rw [this]; rfl
    · exact ⟨true, by simp [nanRow, e, masked], fun h0 => by cases h0⟩

/-- What reading a column gives: the cells, if it is not stored by the lossy manager. -/
def Faithful (view : View Cell) : Prop :=
  ∀ (col : TCol) r x, col.manager ≠ dysco → col.rows r = some x → view col r = x

/-- The column has these cells in the first `n` rows. -/
def Has (col : TCol) (n : Nat) (x : Nat → Cell) : Prop := ∀ r, r < n → col.rows r = some (x r)

section
variable {view : View Cell} (hv : Faithful view) {name : Arg} {flag : TCol} {n : Nat} {D : Nat → List Cx}
  {F : Nat → List Bool}
include hv

theorem flagRow_runs {t : Tab} {col : TCol} {r : Nat} (h : t.cols name = some col)
    (hk : col.kind = .complex) (hm : col.manager ≠ dysco) (hd : col.rows r = some (.complex (D r)))
    (hf : t.cols "FLAG".toList = some flag) (fk : flag.kind = .bool) (fm : flag.manager ≠ dysco)
    (hF : flag.rows r = some (.bool (F r))) (hl : (D r).length ≤ (F r).length) :
    ∃ col', Runs (flagRow view name r) t () { t with cols := Function.update t.cols name (some col') } ∧
      col'.kind = .complex ∧ col'.manager = col.manager ∧
      (∀ j, col'.rows j = if j = r then some (.complex (masked (F r) (D r))) else col.rows j) := by
  have h1 := runs_get (view := view) r h hk
  have h2 := runs_get (view := view) r hf fk
  rw [hv _ _ _ hm hd] at h1
  rw [hv _ _ _ fm hF] at h2
  obtain ⟨ch, e, hch⟩ := nanRow_masked (D r) (F r) hl
  cases ch with
  | false =>
    refine ⟨col, ?_, hk, rfl, fun j => ?_⟩
    · have : { t with cols := Function.update t.cols name (some col) } = t := by
        rw [← h, Function.update_eq_self]
      rw [this]
      refine runs_bind h1 (runs_bind h2 ?_)
      simp only [Cell.complexes, Cell.bools, e, Bool.false_eq_true, if_false]
      exact runs_pure _ _
    · by_cases hj : j = r
      · subst hj; rw [if_pos rfl, hch rfl, hd]
      · rw [if_neg hj]
  | true =>
    refine ⟨{ col with
        rows := fun k => if k = r then some (.complex (masked (F r) (D r))) else col.rows k
        puts := col.puts ++ [(r, .complex (masked (F r) (D r)))] }, ?_, hk, rfl, fun j => rfl⟩
    refine runs_bind h1 (runs_bind h2 ?_)
    simp only [Cell.complexes, Cell.bools, e, if_true]
    refine runs_call ?_
    simp only [h, Table.set]
    congr 2
    funext m
    simp [Function.update_apply]

theorem flagRows_runs {t : Tab} {col : TCol} (h : t.cols name = some col)
    (hk : col.kind = .complex) (hm : col.manager ≠ dysco) (hd : Has col n fun r => .complex (D r))
    (hne : name ≠ "FLAG".toList) (hf : t.cols "FLAG".toList = some flag) (fk : flag.kind = .bool)
    (fm : flag.manager ≠ dysco) (hF : Has flag n fun r => .bool (F r))
    (hl : ∀ r, r < n → (D r).length ≤ (F r).length) :
    ∀ i, i ≤ n → ∃ col', Runs (flagRows view name i) t () { t with cols := Function.update t.cols name (some col') } ∧
      col'.kind = .complex ∧ col'.manager = col.manager ∧
      (∀ j, col'.rows j = if j < i then some (.complex (masked (F j) (D j))) else col.rows j) := by
  intro i
  induction i with
  | zero =>
    intro _
    refine ⟨col, ?_, hk, rfl, fun j => by simp⟩
    have : { t with cols := Function.update t.cols name (some col) } = t := by
      rw [← h, Function.update_eq_self]
    rw [this]
    exact runs_pure _ _
  | succ i ih =>
    intro hi
    obtain ⟨col1, r1, k1, m1, d1⟩ := ih (by omega)
    obtain ⟨col2, r2, k2, m2, d2⟩ := flagRow_runs hv (r := i) (D := D) (F := F)
      (t := { t with cols := Function.update t.cols name (some col1) }) (name := name) (col := col1)
      (Function.update_self ..) k1 (by rw [m1]; exact hm)
      (by rw [d1, if_neg (by omega)]; exact hd i (by omega)) (flag := flag)
      (by rw [← hf]; exact Function.update_of_ne (Ne.symm hne) ..) fk fm (hF i (by omega)) (hl i (by omega))
    refine ⟨col2, ?_, k2, m2.trans m1, fun j => ?_⟩
    · simp only [Function.update_idem] at r2
      exact runs_bind r1 r2
    · rw [d2, d1]
      by_cases hj : j = i
      · subst hj; rw [if_pos rfl, if_pos (by omega)]
      · rw [if_neg hj]
        have : j < i + 1 ↔ j < i := by omega
        simp only [this]

/-- A row with fewer flags than samples. -/
theorem flagRow_short {t : Tab} {col : TCol} {r : Nat} (h : t.cols name = some col)
    (hk : col.kind = .complex) (hm : col.manager ≠ dysco) (hd : col.rows r = some (.complex (D r)))
    (hf : t.cols "FLAG".toList = some flag) (fk : flag.kind = .bool) (fm : flag.manager ≠ dysco)
    (hF : flag.rows r = some (.bool (F r))) (hl : (F r).length < (D r).length) (n : Nat) :
    flagRow view name r n t = .ub := by
  have e1 : getRow view name .complex r n t = .done (.complex (D r)) n t := by
    simp only [getRow, openColumn]
    rw [bind_done (a := col) (n' := n) (t' := t) (by simp only [query, h, hk, if_true])]
    show Out.done (view col r) n t = _
    rw [hv _ _ _ hm hd]
  have e2 : getRow view "FLAG".toList .bool r n t = .done (.bool (F r)) n t := by
    simp only [getRow, openColumn]
    rw [bind_done (a := flag) (n' := n) (t' := t) (by simp only [query, hf, fk, if_true])]
    show Out.done (view flag r) n t = _
    rw [hv _ _ _ fm hF]
  unfold flagRow
  rw [bind_done e1, bind_done e2]
  simp only [Cell.complexes, Cell.bools, nanRow_short _ _ _ hl]
  rfl

end

/-! ## The measurement set -/

/-- The contents of a measurement set. -/
structure MS where
  data : Arg → Nat → List Cx
  weights : Nat → List Fl
  flags : Nat → List Bool
  time : Nat → Fl
  field : Nat → Int
  desc : Nat → Int
  /-- the antennas of a row -/
  ant : Nat → Nat × Nat

/-- A column exists, is not stored by `DyscoStMan`, and has these cells. -/
def Stores (t : Tab) (c : Arg) (kind : Kind) (x : Nat → Cell) : Prop :=
  ∃ col, t.cols c = some col ∧ col.kind = kind ∧ col.manager ≠ dysco ∧ Has col t.nrow x

/-- The table holds the measurement set, the columns that are to be compressed exist, and their temporary names are
free. -/
structure Input (t : Tab) (columns : List Arg) (M : MS) : Prop where
  nodup : columns.Nodup
  free : ∀ c ∈ columns, t.cols (temp c) = none
  data : ∀ c ∈ columns, c ≠ weightName → Stores t c .complex fun r => .complex (M.data c r)
  weights : weightName ∈ columns → Stores t weightName .float fun r => .float (M.weights r)
  flags : Stores t "FLAG".toList .bool fun r => .bool (M.flags r)
  time : Stores t "TIME".toList .double fun r => .double (M.time r)
  field : Stores t "FIELD_ID".toList .int fun r => .int (M.field r)
  desc : Stores t "DATA_DESC_ID".toList .int fun r => .int (M.desc r)
  ant1 : Stores t "ANTENNA1".toList .int fun r => .int (M.ant r).1
  ant2 : Stores t "ANTENNA2".toList .int fun r => .int (M.ant r).2

/-- Flagged samples are NaN in the columns `l`. -/
def MS.flagged (M : MS) (l : List Arg) : MS :=
  { M with data := fun c r => if c ∈ l then masked (M.flags r) (M.data c r) else M.data c r }

/-- Every sample has a flag. -/
def MS.Flags (M : MS) (columns : List Arg) (n : Nat) : Prop :=
  ∀ c ∈ columns, c ≠ weightName → ∀ r, r < n → (M.data c r).length ≤ (M.flags r).length

/-- A column of another type has another name. -/
theorem Stores.ne {t : Tab} {c d : Arg} {k k' : Kind} {x y : Nat → Cell} (h : Stores t c k x) (h' : Stores t d k' y)
    (hk : k ≠ k') : c ≠ d := by
  rintro rfl
  obtain ⟨col, e, h1, -⟩ := h
  obtain ⟨col', e', h1', -⟩ := h'
  rw [e] at e'
  injection e' with e'; subst e'
  exact hk (h1.symm.trans h1')

theorem Stores.same {t t' : Tab} {c : Arg} {k : Kind} {x : Nat → Cell} (h : Stores t c k x) (hc : t'.cols c = t.cols c)
    (hn : t'.nrow = t.nrow) : Stores t' c k x := by
  obtain ⟨col, h1, h2, h3, h4⟩ := h
  exact ⟨col, hc.trans h1, h2, h3, by rw [hn]; exact h4⟩

theorem Stores.congr {t : Tab} {c : Arg} {k : Kind} {x y : Nat → Cell} (h : Stores t c k x) (hxy : x = y) :
    Stores t c k y := hxy ▸ h

section
variable {view : View Cell} (hv : Faithful view) {columns : List Arg}
include hv

theorem flagColumn_runs {t : Tab} {M : MS} (h : Input t columns M) (hf : M.Flags columns t.nrow) {c : Arg}
    (hc : c ∈ columns) :
    ∃ t', Runs (flagColumn view c) t () t' ∧ Input t' columns (M.flagged [c]) ∧ t'.nrow = t.nrow ∧
      ∀ d, d ≠ c ∨ d = weightName → t'.cols d = t.cols d := by
  by_cases hw : c = weightName
  · refine ⟨t, by unfold flagColumn; rw [if_pos hw]; exact runs_pure _ _, ?_, rfl, fun _ _ => rfl⟩
    refine ⟨h.nodup, h.free, fun d hd hdw => ?_, h.weights, h.flags, h.time, h.field, h.desc, h.ant1, h.ant2⟩
    refine (h.data d hd hdw).congr ?_
    funext r
    simp only [MS.flagged, List.mem_singleton]
    rw [if_neg (by rw [hw]; exact hdw)]
  · obtain ⟨col, e1, e2, e3, e4⟩ := h.data c hc hw
    obtain ⟨flag, f1, f2, f3, f4⟩ := h.flags
    have hne : c ≠ "FLAG".toList := (h.data c hc hw).ne h.flags (by decide)
    obtain ⟨col', r1, k1, m1, d1⟩ := flagRows_runs hv (n := t.nrow) e1 e2 e3 e4 hne f1 f2 f3 f4
      (fun r hr => hf c hc hw r hr) t.nrow le_rfl
    have hsame : ∀ d, d ≠ c → (Function.update t.cols c (some col')) d = t.cols d := fun d hd =>
      Function.update_of_ne hd ..
    have keep : ∀ {d : Arg} {k : Kind} {x : Nat → Cell}, Stores t d k x → k ≠ .complex →
        Stores { t with cols := Function.update t.cols c (some col') } d k x := by
      intro d k x hs hk
      exact hs.same (hsame d (hs.ne (h.data c hc hw) hk)) rfl
    refine ⟨{ t with cols := Function.update t.cols c (some col') }, ?_, ?_, rfl, ?_⟩
    rotate_right
    · intro d hd
      rcases hd with hd | hd
      · exact hsame d hd
      · exact hsame d (by rintro rfl; exact hw hd)
    · unfold flagColumn
      rw [if_neg hw]
      exact runs_bind (runs_open e1 e2) (runs_bind (runs_open f1 f2) (runs_bind (runs_query rfl) r1))
    · refine ⟨h.nodup, fun d hd => ?_, fun d hd hdw => ?_, fun hx => keep (h.weights hx) (by decide),
        keep h.flags (by decide), keep h.time (by decide), keep h.field (by decide), keep h.desc (by decide),
        keep h.ant1 (by decide), keep h.ant2 (by decide)⟩
      · show Function.update t.cols c (some col') (temp d) = none
        rw [hsame _ (fun he => by rw [← he, h.free d hd] at e1; cases e1)]
        exact h.free d hd
      · by_cases hdc : d = c
        · subst hdc
          refine ⟨col', Function.update_self .., k1, by rw [m1]; exact e3, fun r hr => ?_⟩
          rw [d1, if_pos hr]
          simp [MS.flagged]
        · refine ((h.data d hd hdw).same (t' := { t with cols := Function.update t.cols c (some col') })
            (hsame d hdc) rfl).congr ?_
          funext r
          simp [MS.flagged, hdc]

/-- The first loop of the program: flagged samples become NaN. -/
theorem flags_run : ∀ (l : List Arg), l.Nodup → (∀ c ∈ l, c ∈ columns) → ∀ (t : Tab) (M : MS), Input t columns M →
    M.Flags columns t.nrow →
    ∃ t', Runs (forEach (flagColumn view) l) t () t' ∧ Input t' columns (M.flagged l) ∧ t'.nrow = t.nrow ∧
      ∀ d, d ∉ l ∨ d = weightName → t'.cols d = t.cols d := by
  intro l
  induction l with
  | nil =>
    intro _ _ t M h _
    exact ⟨t, runs_pure _ _, by simpa [MS.flagged] using h, rfl, fun _ _ => rfl⟩
  | cons c l ih =>
    intro hnd hl t M h hf
    obtain ⟨t1, r1, i1, n1, s1⟩ := flagColumn_runs hv h hf (hl c (by simp))
    have hnd' := List.nodup_cons.1 hnd
    have hf1 : (M.flagged [c]).Flags columns t1.nrow := by
      intro d hd hdw r hr
      have := hf d hd hdw r (by rw [← n1]; exact hr)
      simp only [MS.flagged]
      split
      · rw [masked_length this]; exact this
      · exact this
    obtain ⟨t2, r2, i2, n2, s2⟩ := ih hnd'.2 (fun d hd => hl d (by simp [hd])) t1 _ i1 hf1
    refine ⟨t2, runs_bind r1 r2, ?_, n2.trans n1, ?_⟩
    · have : (M.flagged [c]).flagged l = M.flagged (c :: l) := by
        unfold MS.flagged
        congr 1
        funext d r
        by_cases hd : d = c
        · subst hd; simp [hnd'.1]
        · simp [hd]
      rw [← this]
      exact i2
    · intro d hd
      rcases hd with hd | hd
      · have hd := not_or.1 (fun hx => hd (List.mem_cons.2 hx))
        rw [s2 d (.inl hd.2), s1 d (.inl hd.1)]
      · rw [s2 d (.inr hd), s1 d (.inr hd)]

end

/-! ## The check -/

/-- The rows as the check sees them. -/
def MS.rows (M : MS) (n : Nat) : List (Row Key) :=
  (List.range n).map fun r => ⟨(M.time r, M.field r, M.desc r), (M.ant r).1, (M.ant r).2⟩

theorem checkOrder_eq {view : View Cell} (hv : Faithful view) {columns : List Arg} {t : Tab} {M : MS}
    (h : Input t columns M) (n : Nat) :
    checkOrder view n t = (match check differs (M.rows t.nrow) with
      | .ok () => .done () n t
      | .throws => .threw t
      | .ub => .ub) := by
  obtain ⟨a1, p1, p2, p3, p4⟩ := h.ant1
  obtain ⟨a2, q1, q2, q3, q4⟩ := h.ant2
  obtain ⟨fi, f1, f2, f3, f4⟩ := h.field
  obtain ⟨dd, d1, d2, d3, d4⟩ := h.desc
  obtain ⟨ti, t1, t2, t3, t4⟩ := h.time
  have op : ∀ {name : Arg} {kind : Kind} {col : TCol}, t.cols name = some col → col.kind = kind →
      (openColumn name kind : Act Cell TCol) n t = .done col n t := by
    intro name kind col e1 e2
    simp only [openColumn, query, e1, e2, if_true]
  unfold checkOrder
  rw [bind_done (op p1 p2), bind_done (op q1 q2), bind_done (op f1 f2), bind_done (op d1 d2), bind_done (op t1 t2),
    bind_done (m := query fun t => some t.nrow) (a := t.nrow) (n' := n) (t' := t) rfl]
  have e : ((List.range t.nrow).map fun r => (⟨((view ti r).toDouble, (view fi r).toInt, (view dd r).toInt),
      (view a1 r).toInt, (view a2 r).toInt⟩ : Row Key)) = M.rows t.nrow := by
    refine List.map_congr_left fun r hr => ?_
    have hr := List.mem_range.1 hr
    rw [hv _ _ _ p3 (p4 r hr), hv _ _ _ q3 (q4 r hr), hv _ _ _ f3 (f4 r hr), hv _ _ _ d3 (d4 r hr),
      hv _ _ _ t3 (t4 r hr)]
    rfl
  rw [e]
  cases check differs (M.rows t.nrow) <;> rfl

end Dysco.Compress
