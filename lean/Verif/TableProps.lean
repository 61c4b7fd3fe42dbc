import Verif.MoveProps
import Verif.CheckRegular

/-!
# The compression and decompression tools on a table: C56, C57, C65
-/

namespace Dysco.Tools

variable {R : Type}

/-- A column that the new manager has received every row of, as read from the old column. -/
def copied (view : View R) (manager : Arg) (kind : Kind) (nrow : Nat) (old : Column R) : Column R :=
  ⟨manager, kind, fun r => if r < nrow then some (view old r) else none, (List.range nrow).map fun r => (r, view old r)⟩

theorem newCol_eq {S : Setup R} {c : Arg} {old : Column R} (e : S.table.cols c = some old) (k : Nat) :
    S.newCol c k = copied S.view S.manager (S.kind c) k old := by
  simp [Setup.newCol, copied, e]

/-- In every phase the data of the column can be reached. -/
theorem at_reachable {S : Setup R} {t : Table R} {c : Arg} {ph : Phase} (h : S.At t c ph) {old : Column R}
    (e : S.table.cols c = some old) :
    (t.cols c = some old ∧ t.cols (temp c) = none) ∨ t.cols (temp c) = some old ∨
      (t.cols c = some (copied S.view S.manager (S.kind c) S.table.nrow old) ∧ t.cols (temp c) = none) := by
  cases ph with
  | orig => exact Or.inl ⟨h.1.trans e, h.2⟩
  | renamed => exact Or.inr (Or.inl (h.2.trans e))
  | copying k => exact Or.inr (Or.inl (h.2.trans e))
  | moved => exact Or.inr (Or.inr ⟨by rw [← newCol_eq e]; exact h.1, h.2⟩)

/-- What is required of a table and the columns that are to be compressed. -/
structure Compressible (t : Table R) (columns : List Arg) : Prop where
  nodup : columns.Nodup
  exist : ∀ c ∈ columns, ∃ col, t.cols c = some col ∧ col.kind = kindOf c
  free : ∀ c ∈ columns, t.cols (temp c) = none

/-- C56: dscompress stopped at any point, on columns that are not compressed yet: it does not throw; each column is still
under its name, or under its temporary name, or was copied entirely; all other columns are untouched. -/
theorem compress_safe (view : View R) (columns : List Arg) (t0 : Table R) (h : Compressible t0 columns)
    (hm : ∀ c ∈ columns, ∀ col, t0.cols c = some col → col.manager ≠ dysco) (n : Nat) :
    ∃ t, ((∃ n', compressColumns view columns n t0 = .done () n' t) ∨ compressColumns view columns n t0 = .stopped t) ∧
      t.nrow = t0.nrow ∧
      (∀ c ∈ columns, ∀ old, t0.cols c = some old →
        (t.cols c = some old ∧ t.cols (temp c) = none) ∨ t.cols (temp c) = some old ∨
        (t.cols c = some (copied view dysco (kindOf c) t0.nrow old) ∧ t.cols (temp c) = none)) ∧
      ∀ d, d ∉ columns → (∀ c ∈ columns, d ≠ temp c) → t.cols d = t0.cols d := by
  by_cases hne : columns = []
  · subst hne
    exact ⟨t0, Or.inl ⟨n, rfl⟩, rfl, by simp, fun _ _ _ => rfl⟩
  · let S : Setup R := ⟨view, dysco, kindOf, columns, t0⟩
    have ok : S.Ok := ⟨h.exist, h.free⟩
    have hmove : ∀ c ∈ S.columns, S.toMove c = true := by
      intro c hc
      obtain ⟨col, e, -⟩ := h.exist c hc
      have := hm c hc col e
      simp [Setup.toMove, S, e, this]
    have hd := does_compress ok rfl rfl h.nodup hne hmove n t0 (like_start S ok)
    by_cases hk : S.columns.length * (S.table.nrow + 3) ≤ n
    · obtain ⟨t, e, hl⟩ := hd.1 hk
      exact ⟨t, Or.inl ⟨_, e⟩, hl.nrow, fun c hc old eo => at_reachable (S := S) (hl.at_ c hc) eo, hl.rest⟩
    · obtain ⟨t, ph, e, hl⟩ := hd.2 (by omega)
      exact ⟨t, Or.inr e, hl.nrow, fun c hc old eo => at_reachable (S := S) (hl.at_ c hc) eo, hl.rest⟩

/-- C56: when dscompress is not stopped it finishes, every column has been given to DyscoStMan with every row as it was
read, the temporary columns are gone, and all other columns are untouched. -/
theorem compress_done (view : View R) (columns : List Arg) (t0 : Table R) (h : Compressible t0 columns)
    (hm : ∀ c ∈ columns, ∀ col, t0.cols c = some col → col.manager ≠ dysco) :
    ∃ n0, ∀ n, n0 ≤ n → ∃ n' t, compressColumns view columns n t0 = .done () n' t ∧ t.nrow = t0.nrow ∧
      (∀ c ∈ columns, ∀ old, t0.cols c = some old →
        t.cols c = some (copied view dysco (kindOf c) t0.nrow old) ∧ t.cols (temp c) = none) ∧
      ∀ d, d ∉ columns → (∀ c ∈ columns, d ≠ temp c) → t.cols d = t0.cols d := by
  by_cases hne : columns = []
  · subst hne
    exact ⟨0, fun n _ => ⟨n, t0, rfl, rfl, by simp, fun _ _ _ => rfl⟩⟩
  · let S : Setup R := ⟨view, dysco, kindOf, columns, t0⟩
    have ok : S.Ok := ⟨h.exist, h.free⟩
    have hmove : ∀ c ∈ S.columns, S.toMove c = true := by
      intro c hc
      obtain ⟨col, e, -⟩ := h.exist c hc
      have := hm c hc col e
      simp [Setup.toMove, S, e, this]
    refine ⟨S.columns.length * (S.table.nrow + 3), fun n hn => ?_⟩
    obtain ⟨t, e, hl⟩ := (does_compress ok rfl rfl h.nodup hne hmove n t0 (like_start S ok)).1 hn
    refine ⟨_, t, e, hl.nrow, fun c hc old eo => ?_, hl.rest⟩
    have := hl.at_ c hc
    have hcs : c ∈ S.columns := hc
    rw [if_pos hcs] at this
    exact ⟨this.1.trans (by rw [newCol_eq (S := S) eo]), this.2⟩

/-- C56: running dscompress on columns that DyscoStMan already stores changes nothing, whatever else the table has. In
particular a stopped run is not resumed: the new columns keep the rows copied so far, the old ones their temporary
name. -/
theorem compress_again (view : View R) (columns : List Arg) (t : Table R)
    (h : ∀ c ∈ columns, ∃ col, t.cols c = some col ∧ col.kind = kindOf c ∧ col.manager = dysco) (n : Nat) :
    compressColumns view columns n t = .done () n t := by
  have hp : ∀ l : List Arg, (∀ c ∈ l, c ∈ columns) → prepareAll l false n t = .done false n t := by
    intro l
    induction l with
    | nil => intro _; rfl
    | cons a l ih =>
      intro hl
      obtain ⟨col, e, hk, hm⟩ := h a (hl a (by simp))
      have ho : openColumn a (kindOf a) n t = .done col n t := by
        simp only [openColumn, query, e, hk, if_true]
      have hg : getStorageManager a (kindOf a) n t = .done dysco n t := by
        show Act.bind (openColumn a (kindOf a)) _ n t = _
        rw [Act.bind, ho, ← hm]; rfl
      have hr : prepareReplacingColumn a dysco (kindOf a) n t = .done false n t := by
        show Act.bind (getStorageManager a (kindOf a)) _ n t = _
        rw [Act.bind, hg]; rfl
      show Act.bind (prepareReplacingColumn a dysco (kindOf a)) (fun r => prepareAll l (r || false)) n t = _
      rw [Act.bind, hr]
      exact ih fun c hc => hl c (by simp [hc])
  show Act.bind (prepareAll columns false) _ n t = _
  rw [Act.bind, hp columns fun _ hc => hc]
  rfl

/-- C56: when some of the columns are stored by DyscoStMan and others are not, dscompress throws after renaming the
others: these stay under their temporary names only. -/
theorem compress_mixed (view : View R) (columns : List Arg) (t0 : Table R) (h : Compressible t0 columns)
    (hd : ∃ c ∈ columns, ∃ col, t0.cols c = some col ∧ col.manager = dysco)
    (hm : ∃ c ∈ columns, ∃ col, t0.cols c = some col ∧ col.manager ≠ dysco) :
    ∃ n0, ∀ n, n0 ≤ n → ∃ t, compressColumns view columns n t0 = .threw t ∧
      ∀ c ∈ columns, ∀ old, t0.cols c = some old →
        (old.manager = dysco → t.cols c = some old) ∧
        (old.manager ≠ dysco → t.cols (temp c) = some old ∧
          ∀ col, t.cols c = some col → col.rows = fun _ => none) := by
  let S : Setup R := ⟨view, dysco, kindOf, columns, t0⟩
  have ok : S.Ok := ⟨h.exist, h.free⟩
  have htm : ∀ c col, t0.cols c = some col → (S.toMove c = true ↔ col.manager ≠ dysco) := by
    intro c col e
    simp [Setup.toMove, S, e]
  obtain ⟨c1, hc1, col1, e1, hm1⟩ := hm
  -- the first column that is stored by DyscoStMan
  obtain ⟨pre, d, suf, hsplit, hpre, hdy⟩ : ∃ pre d suf, columns = pre ++ d :: suf ∧
      (∀ c ∈ pre, S.toMove c = true) ∧ S.toMove d = false := by
    obtain ⟨c, hc, col, e, hm⟩ := hd
    have hmem : S.toMove c = false := by
      cases hb : S.toMove c with
      | false => rfl
      | true => exact absurd hm ((htm c col e).1 hb)
    clear hm e
    have : ∀ l : List Arg, c ∈ l → ∃ pre d suf, l = pre ++ d :: suf ∧
        (∀ c ∈ pre, S.toMove c = true) ∧ S.toMove d = false := by
      intro l
      induction l with
      | nil => intro h; simp at h
      | cons a l ih =>
        intro hl
        cases hb : S.toMove a with
        | false => exact ⟨[], a, l, rfl, by simp, hb⟩
        | true =>
          have : c ∈ l := by
            rcases List.mem_cons.1 hl with rfl | h
            · rw [hmem] at hb; cases hb
            · exact h
          obtain ⟨pre, d, suf, e, h1, h2⟩ := ih this
          refine ⟨a :: pre, d, suf, by rw [e]; rfl, ?_, h2⟩
          intro x hx
          rcases List.mem_cons.1 hx with rfl | hx
          · exact hb
          · exact h1 x hx
    exact this columns hc
  have hin : ∀ c ∈ pre, c ∈ S.columns := fun c hc => by show c ∈ columns; rw [hsplit]; simp [hc]
  have hdin : d ∈ S.columns := by show d ∈ columns; rw [hsplit]; simp
  have hndp : pre.Nodup := by
    have := h.nodup
    rw [hsplit] at this
    exact (List.nodup_append.1 this).1
  have hdpre : d ∉ pre := by
    intro hc
    rw [hpre d hc] at hdy; cases hdy
  have h1 := does_prepareAll ok rfl rfl columns false (fun _ => .orig) h.nodup fun c hc => ⟨hc, rfl⟩
  have eany : (columns.any S.toMove || false) = true := by
    rw [Bool.or_false, List.any_eq_true]
    exact ⟨c1, hc1, (htm c1 col1 e1).2 hm1⟩
  rw [eany] at h1
  have h2 := does_forEach (S := S) (f := fun a => addColumn a dysco (kindOf a)) (k := 1) (x := .renamed)
    (y := .copying 0) (fun c hc ph hp => does_add ok hc hp) pre
    (fun c => if c ∈ columns ∧ S.toMove c = true then .renamed else .orig) hndp
    (fun c hc => ⟨hin c hc, if_pos ⟨hin c hc, hpre c hc⟩⟩)
  refine ⟨(columns.filter S.toMove).length + (pre.length * 1 + 1), fun n hn => ?_⟩
  obtain ⟨t1, e1', hl1⟩ := (h1 n t0 (like_start S ok)).1 (by omega)
  obtain ⟨t2, e2', hl2⟩ := (h2 (n - (columns.filter S.toMove).length) t1 hl1).1 (by omega)
  obtain ⟨m, hm⟩ : ∃ m, n - (columns.filter S.toMove).length - pre.length * 1 = m + 1 :=
    ⟨n - (columns.filter S.toMove).length - pre.length * 1 - 1, by omega⟩
  obtain ⟨cold, ed, -⟩ := ok.exist d hdin
  have hatd := hl2.at_ d hdin
  rw [if_neg hdpre, if_neg (by simp [hdy])] at hatd
  have hadd : addColumn d dysco (kindOf d) (m + 1) t2 = .threw t2 := by
    simp only [addColumn, call, hatd.1, ed]
  refine ⟨t2, ?_, ?_⟩
  · have e3 : forEach (fun a => addColumn a dysco (kindOf a)) columns (n - (columns.filter S.toMove).length) t1 =
        .threw t2 := by
      rw [congrArg (forEach fun a => addColumn (R := R) a dysco (kindOf a)) hsplit, forEach_append]
      refine (bind_done e2').trans ?_
      rw [hm]
      exact bind_threw hadd
    exact (bind_done e1').trans (bind_threw e3)
  · intro c hc old eo
    have hat := hl2.at_ c hc
    constructor
    · intro hmg
      have htf : ¬ S.toMove c = true := fun hh => (htm c old eo).1 hh hmg
      have hnp : c ∉ pre := fun hc => htf (hpre c hc)
      rw [if_neg hnp, if_neg (fun hh => htf hh.2)] at hat
      exact hat.1.trans eo
    · intro hmg
      have htt : S.toMove c = true := (htm c old eo).2 hmg
      by_cases hp : c ∈ pre
      · rw [if_pos hp] at hat
        refine ⟨hat.2.trans eo, fun col ec => ?_⟩
        rw [hat.1] at ec
        have := Option.some.inj ec
        rw [← this]
        funext r
        simp [Setup.newCol]
      · rw [if_neg hp, if_pos ⟨hc, htt⟩] at hat
        refine ⟨hat.2.trans eo, fun col ec => ?_⟩
        rw [hat.1] at ec; cases ec

/-- C56, the exception: for a table of one time block the check passes and the tool finishes with the old column removed,
and then writing out the rows that DyscoStMan was given always fails, with nothing in the file. -/
theorem compress_one_block_lost {K V : Type} {differs : K → K → Bool} {rows : List (Row K)}
    (hc : check differs rows = .ok ()) (he : IsEquality differs) (h1 : (blocks differs rows).length = 1)
    (view : View V) (columns : List Arg) (t0 : Table V) (hrows : t0.nrow = rows.length)
    (h : Compressible t0 columns) (hm : ∀ c ∈ columns, ∀ col, t0.cols c = some col → col.manager ≠ dysco)
    (p : Col.Params V K) (hp : p.differs = differs) (hk : ∀ i (hi : i < rows.length), p.key i = rows[i].key)
    (hn : 0 < p.threads) (hmc : 1 ≤ p.maxCache) :
    ∃ n0, ∀ n, n0 ≤ n → ∃ n' t, compressColumns view columns n t0 = .done () n' t ∧
      ∀ c ∈ columns, t.cols (temp c) = none ∧
        ∀ col, t.cols c = some col → ∀ (k : K) (file : Nat → Option (Col.Rows V)) (nBlocks : Nat)
          (l : List (Nat × V)), l ≠ [] → (∀ x ∈ l, col.rows x.1 = some x.2) →
          ∀ s : Col.State V K p.threads, Col.Reachable p (Col.initial p k 0 file nBlocks (Col.putAll l)) s →
            s.writes = [] ∧ s.client ≠ .closed ∧
              ∀ junk, Col.step p s (.client junk) = none → s.client = .failed := by
  obtain ⟨n0, hn0⟩ := compress_done view columns t0 h hm
  refine ⟨n0, fun n hle => ?_⟩
  obtain ⟨n', t, e, -, hcols, -⟩ := hn0 n hle
  refine ⟨n', t, e, fun c hcc => ?_⟩
  obtain ⟨old, eo, -⟩ := h.exist c hcc
  obtain ⟨g1, g2⟩ := hcols c hcc old eo
  refine ⟨g2, fun col ec k file nBlocks l hl hx s hr => ?_⟩
  have : col = copied view dysco (kindOf c) t0.nrow old := Option.some.inj (ec.symm.trans g1)
  subst this
  refine checked_single_block hc he h1 p hp hk hn hmc hl (fun x hxl => ?_) hr
  have := hx x hxl
  rw [← hrows]
  by_contra hge
  simp [copied, hge] at this

/-! ## Decompression -/

/-- `DATA`, decompress.cc:17-22. -/
def dataName : Arg := "DATA".toList

/-- `WEIGHT_SPECTRUM`, decompress.cc:17-22. -/
def weightName : Arg := "WEIGHT_SPECTRUM".toList

/-- What is required of a table for the decompression tool. -/
structure Decompressible (t : Table R) : Prop where
  data : ∃ col, t.cols dataName = some col ∧ col.kind = .complex
  weight : ∃ col, t.cols weightName = some col ∧ col.kind = .float
  dataFree : t.cols (temp dataName) = none
  weightFree : t.cols (temp weightName) = none

/-- What becomes of a column. -/
def decompressed (view : View R) (kind : Kind) (nrow : Nat) (old : Column R) : Column R :=
  if old.manager = dysco then copied view default' kind nrow old else old

theorem dataName_ne : dataName ≠ weightName := by unfold dataName weightName; simp

theorem default_ne : default' ≠ dysco := by unfold default' dysco; simp

theorem weight_ne_temp : weightName ≠ temp dataName := by unfold weightName temp dataName; simp

theorem temp_data_free : temp dataName ≠ dataName ∧ temp dataName ≠ weightName := by
  unfold temp dataName weightName; simp

theorem temp_weight_free : temp weightName ≠ dataName ∧ temp weightName ≠ weightName := by
  unfold temp dataName weightName; simp

/-- The tool, for a table with both columns. -/
theorem does_decompress {S : Setup R} (ok : S.Ok) (hman : S.manager = default')
    (hk : S.kind = fun c => if c = weightName then .float else .complex) (hcs : S.columns = [dataName, weightName])
    {d w : Column R} (ed : S.table.cols dataName = some d) (ew : S.table.cols weightName = some w) :
    ∃ k, S.Does (decompressColumns S.view) k (fun _ => .orig) (decide (d.manager = dysco) || decide (w.manager = dysco))
      (fun c => if c = dataName ∧ d.manager = dysco ∨ c = weightName ∧ w.manager = dysco then .moved else .orig) := by
  have hd : dataName ∈ S.columns := by rw [hcs]; simp
  have hw : weightName ∈ S.columns := by rw [hcs]; simp
  have hkd : S.kind dataName = .complex := by rw [hk]; exact if_neg dataName_ne
  have hkw : S.kind weightName = .float := by rw [hk]; exact if_pos rfl
  have hne := dataName_ne
  -- the two statements of each column
  have init : ∀ c ∈ S.columns, ∀ col, S.table.cols c = some col → ∀ ph : Arg → Phase, ph c = .orig →
      ∃ k, S.Does (initColumnWithDefaultStMan c (S.kind c)) k ph (decide (col.manager = dysco))
        (if col.manager = dysco then Function.update ph c (.copying 0) else ph) := by
    intro c hc col e ph hp
    by_cases hm : col.manager = dysco
    · rw [decide_eq_true hm, if_pos hm]
      exact ⟨2, does_init ok hc e hm hman hp⟩
    · rw [decide_eq_false hm, if_neg hm]
      exact ⟨0, does_init_not ok hc e hm hp⟩
  have move : ∀ c ∈ S.columns, ∀ b : Bool, ∀ ph : Arg → Phase, (b = true → ph c = .copying 0) →
      ∃ k, S.Does (onlyIf b (moveColumnData S.view c (S.kind c))) k ph ()
        (if b = true then Function.update ph c .moved else ph) := by
    intro c hc b ph hp
    cases b with
    | false => exact ⟨0, does_pure S ph ()⟩
    | true => exact ⟨_, does_move ok hc (hp rfl)⟩
  obtain ⟨k1, h1⟩ := init dataName hd d ed (fun _ => .orig) rfl
  obtain ⟨k2, h2⟩ := init weightName hw w ew
    (if d.manager = dysco then Function.update (fun _ => .orig) dataName (.copying 0) else fun _ => .orig) (by
      by_cases hm : d.manager = dysco
      · rw [if_pos hm, Function.update_of_ne hne.symm]
      · rw [if_neg hm])
  generalize hph2 : (if w.manager = dysco then Function.update
    (if d.manager = dysco then Function.update (fun _ => Phase.orig) dataName (.copying 0) else fun _ => .orig)
      weightName (.copying 0)
    else if d.manager = dysco then Function.update (fun _ => Phase.orig) dataName (.copying 0) else fun _ => .orig)
      = ph2 at h2
  obtain ⟨k3, h3⟩ := move dataName hd (decide (d.manager = dysco)) ph2 (by
    intro hm
    have hm : d.manager = dysco := by simpa using hm
    rw [← hph2]
    by_cases hmw : w.manager = dysco <;> simp [hm, hmw, hne])
  obtain ⟨k4, h4⟩ := move weightName hw (decide (w.manager = dysco))
    (if decide (d.manager = dysco) = true then Function.update ph2 dataName .moved else ph2) (by
    intro hm
    have hm : w.manager = dysco := by simpa using hm
    rw [← hph2]
    by_cases hmd : d.manager = dysco <;> simp [hm, hmd, hne.symm])
  rw [hkd] at h1 h3
  rw [hkw] at h2 h4
  have := does_bind h1 (f := fun x => initColumnWithDefaultStMan weightName .float >>= fun y =>
    onlyIf (x) (moveColumnData S.view dataName .complex) >>= fun _ =>
    onlyIf (y) (moveColumnData S.view weightName .float) >>= fun _ => pure (x || y))
    (does_bind h2 (f := fun y =>
      onlyIf (decide (d.manager = dysco)) (moveColumnData S.view dataName .complex) >>= fun _ =>
      onlyIf (y) (moveColumnData S.view weightName .float) >>= fun _ =>
        pure (decide (d.manager = dysco) || y))
      (does_bind h3 (f := fun _ =>
        onlyIf (decide (w.manager = dysco)) (moveColumnData S.view weightName .float) >>= fun _ =>
          pure (decide (d.manager = dysco) || decide (w.manager = dysco)))
        (does_bind h4 (f := fun _ => pure (decide (d.manager = dysco) || decide (w.manager = dysco)))
          (does_pure S _ _))))
  have e : (fun c => if c = dataName ∧ d.manager = dysco ∨ c = weightName ∧ w.manager = dysco then Phase.moved else .orig) =
      if decide (w.manager = dysco) = true then
        Function.update (if decide (d.manager = dysco) = true then Function.update ph2 dataName .moved else ph2)
          weightName .moved
      else if decide (d.manager = dysco) = true then Function.update ph2 dataName .moved else ph2 := by
    funext c
    rw [← hph2]
    by_cases hmd : d.manager = dysco <;> by_cases hmw : w.manager = dysco <;> by_cases hc1 : c = dataName <;>
      by_cases hc2 : c = weightName <;> simp [hmd, hmw, hc1, hc2, hne, hne.symm]
  rw [e]
  exact ⟨_, this⟩

/-- C57: decompressing a table with both columns finishes; each column that DyscoStMan stored is now in the default
manager with the values that were read, each other column and the rest of the table are untouched. -/
theorem decompress_done (view : View R) (t0 : Table R) (h : Decompressible t0) {d w : Column R}
    (ed : t0.cols dataName = some d) (ew : t0.cols weightName = some w) :
    ∃ n0, ∀ n, n0 ≤ n → ∃ n' t, decompressColumns view n t0 =
        .done (decide (d.manager = dysco) || decide (w.manager = dysco)) n' t ∧ t.nrow = t0.nrow ∧
      t.cols dataName = some (decompressed view .complex t0.nrow d) ∧
      t.cols weightName = some (decompressed view .float t0.nrow w) ∧
      ∀ c, c ≠ dataName → c ≠ weightName → t.cols c = t0.cols c := by
  let S : Setup R := ⟨view, default', fun c => if c = weightName then .float else .complex, [dataName, weightName], t0⟩
  have hne := dataName_ne
  have ok : S.Ok := by
    constructor
    · intro c hc
      have hc : c = dataName ∨ c = weightName := by simpa [S] using hc
      rcases hc with rfl | rfl
      · obtain ⟨col, e, hk⟩ := h.data
        exact ⟨col, e, by rw [hk]; simp [S, hne]⟩
      · obtain ⟨col, e, hk⟩ := h.weight
        exact ⟨col, e, by rw [hk]; simp [S]⟩
    · intro c hc
      have hc : c = dataName ∨ c = weightName := by simpa [S] using hc
      rcases hc with rfl | rfl
      · exact h.dataFree
      · exact h.weightFree
  obtain ⟨k, hdo⟩ := does_decompress (S := S) ok rfl rfl rfl ed ew
  refine ⟨k, fun n hn => ?_⟩
  obtain ⟨t, e, hl⟩ := (hdo n t0 (like_start S ok)).1 hn
  have hd : dataName ∈ S.columns := by simp [S]
  have hw : weightName ∈ S.columns := by simp [S]
  have had := hl.at_ _ hd
  have haw := hl.at_ _ hw
  have gd : t.cols dataName = some (decompressed view .complex t0.nrow d) ∧ t.cols (temp dataName) = none := by
    by_cases hm : d.manager = dysco
    · rw [if_pos (Or.inl ⟨rfl, hm⟩)] at had
      refine ⟨had.1.trans ?_, had.2⟩
      rw [newCol_eq (S := S) ed, decompressed, if_pos hm]
      simp [S, hne]
    · rw [if_neg (by simp [hm, hne])] at had
      exact ⟨had.1.trans (ed.trans (by rw [decompressed, if_neg hm])), had.2⟩
  have gw : t.cols weightName = some (decompressed view .float t0.nrow w) ∧ t.cols (temp weightName) = none := by
    by_cases hm : w.manager = dysco
    · rw [if_pos (Or.inr ⟨rfl, hm⟩)] at haw
      refine ⟨haw.1.trans ?_, haw.2⟩
      rw [newCol_eq (S := S) ew, decompressed, if_pos hm]
      simp [S]
    · rw [if_neg (by simp [hm, hne.symm])] at haw
      exact ⟨haw.1.trans (ew.trans (by rw [decompressed, if_neg hm])), haw.2⟩
  refine ⟨_, t, e, hl.nrow, gd.1, gw.1, fun c h1 h2 => ?_⟩
  by_cases ht1 : c = temp dataName
  · rw [ht1, gd.2, h.dataFree]
  · by_cases ht2 : c = temp weightName
    · rw [ht2, gw.2, h.weightFree]
    · refine hl.rest c (by simp [S, h1, h2]) fun x hx => ?_
      have hx : x = dataName ∨ x = weightName := by simpa [S] using hx
      rcases hx with rfl | rfl
      · exact ht1
      · exact ht2

/-- C57: a table whose columns are not stored by DyscoStMan is not changed, and no call is made that changes it. -/
theorem decompress_nothing (view : View R) (t : Table R) {d w : Column R} (ed : t.cols dataName = some d)
    (ew : t.cols weightName = some w) (kd : d.kind = .complex) (kw : w.kind = .float) (md : d.manager ≠ dysco)
    (mw : w.manager ≠ dysco) (n : Nat) : decompressColumns view n t = .done false n t := by
  have hi : ∀ c kind col, t.cols c = some col → col.kind = kind → col.manager ≠ dysco →
      initColumnWithDefaultStMan c kind n t = .done false n t := by
    intro c kind col e hk hm
    have ho : openColumn c kind n t = .done col n t := by
      simp only [openColumn, query, e, hk, if_true]
    have hg : getStorageManager c kind n t = .done col.manager n t := by
      show Act.bind (openColumn c kind) _ n t = _
      rw [Act.bind, ho]; rfl
    show Act.bind (getStorageManager c kind) _ n t = _
    rw [Act.bind, hg]
    simp only [if_neg hm]
    rfl
  show Act.bind (initColumnWithDefaultStMan dataName .complex) _ n t = _
  rw [Act.bind, hi _ _ _ ed kd md]
  show Act.bind (initColumnWithDefaultStMan weightName .float) _ n t = _
  rw [Act.bind, hi _ _ _ ew kw mw]
  rfl

/-- C57: running the tool twice is running it once. -/
theorem decompress_idempotent (view : View R) (t0 : Table R) (h : Decompressible t0) :
    ∃ n0, ∀ n, n0 ≤ n → ∃ b n' t, decompressColumns view n t0 = .done b n' t ∧
      ∀ m, decompressColumns view m t = .done false m t := by
  obtain ⟨d, ed, kd⟩ := h.data
  obtain ⟨w, ew, kw⟩ := h.weight
  obtain ⟨n0, hn0⟩ := decompress_done view t0 h ed ew
  refine ⟨n0, fun n hn => ?_⟩
  obtain ⟨n', t, e, -, gd, gw, -⟩ := hn0 n hn
  have hdd : default' ≠ dysco := default_ne
  have hmg : ∀ (kind : Kind) (col : Column R), col.kind = kind → (decompressed view kind t0.nrow col).kind = kind ∧
      (decompressed view kind t0.nrow col).manager ≠ dysco := by
    intro kind col hk
    by_cases hm : col.manager = dysco
    · rw [decompressed, if_pos hm]
      exact ⟨rfl, hdd⟩
    · rw [decompressed, if_neg hm]
      exact ⟨hk, hm⟩
  refine ⟨_, n', t, e, fun m => ?_⟩
  exact decompress_nothing view t gd gw (hmg _ d kd).1 (hmg _ w kw).1 (hmg _ d kd).2 (hmg _ w kw).2 m

/-- C57: stopped at any point, the old values of both columns are there, under the name or the temporary name, or
copied entirely. -/
theorem decompress_safe (view : View R) (t0 : Table R) (h : Decompressible t0) (n : Nat) :
    ∃ t, ((∃ b n', decompressColumns view n t0 = .done b n' t) ∨ decompressColumns view n t0 = .stopped t) ∧
      ∀ c kind, (c = dataName ∧ kind = Kind.complex ∨ c = weightName ∧ kind = Kind.float) →
        ∀ old, t0.cols c = some old →
        (t.cols c = some old ∧ t.cols (temp c) = none) ∨ t.cols (temp c) = some old ∨
        (t.cols c = some (copied view default' kind t0.nrow old) ∧ t.cols (temp c) = none) := by
  let S : Setup R := ⟨view, default', fun c => if c = weightName then .float else .complex, [dataName, weightName], t0⟩
  have hne := dataName_ne
  obtain ⟨d, ed, kd⟩ := h.data
  obtain ⟨w, ew, kw⟩ := h.weight
  have ok : S.Ok := by
    constructor
    · intro c hc
      have hc : c = dataName ∨ c = weightName := by simpa [S] using hc
      rcases hc with rfl | rfl
      · exact ⟨d, ed, by rw [kd]; simp [S, hne]⟩
      · exact ⟨w, ew, by rw [kw]; simp [S]⟩
    · intro c hc
      have hc : c = dataName ∨ c = weightName := by simpa [S] using hc
      rcases hc with rfl | rfl
      · exact h.dataFree
      · exact h.weightFree
  obtain ⟨k, hdo⟩ := does_decompress (S := S) ok rfl rfl rfl ed ew
  have key : ∀ t ph, S.Like ph t → ∀ c kind, (c = dataName ∧ kind = Kind.complex ∨ c = weightName ∧ kind = Kind.float) →
        ∀ old, t0.cols c = some old →
        (t.cols c = some old ∧ t.cols (temp c) = none) ∨ t.cols (temp c) = some old ∨
        (t.cols c = some (copied view default' kind t0.nrow old) ∧ t.cols (temp c) = none) := by
    intro t ph hl c kind hck old eo
    rcases hck with ⟨rfl, rfl⟩ | ⟨rfl, rfl⟩
    · have := at_reachable (S := S) (hl.at_ dataName (by simp [S])) eo
      simpa [S, hne] using this
    · have := at_reachable (S := S) (hl.at_ weightName (by simp [S])) eo
      simpa [S] using this
  by_cases hk : k ≤ n
  · obtain ⟨t, e, hl⟩ := (hdo n t0 (like_start S ok)).1 hk
    exact ⟨t, Or.inl ⟨_, _, e⟩, key t _ hl⟩
  · obtain ⟨t, ph, e, hl⟩ := (hdo n t0 (like_start S ok)).2 (by omega)
    exact ⟨t, Or.inr e, key t _ hl⟩

/-- C57 does not hold for a table without weights: the tool throws when the data column has been renamed and replaced by
an empty one, and running it again does not repair this. -/
theorem decompress_no_weights (view : View R) (t0 : Table R) {d : Column R} (ed : t0.cols dataName = some d)
    (kd : d.kind = .complex) (md : d.manager = dysco) (free : t0.cols (temp dataName) = none)
    (ew : t0.cols weightName = none) (n : Nat) (hn : 2 ≤ n) :
    ∃ t, decompressColumns view n t0 = .threw t ∧ t.cols dataName = some ⟨default', .complex, fun _ => none, []⟩ ∧
      t.cols (temp dataName) = some d ∧ ∀ m, decompressColumns view m t = .threw t := by
  let S : Setup R := ⟨view, default', fun _ => .complex, [dataName], t0⟩
  have ok : S.Ok := by
    constructor
    · intro c hc
      have hc : c = dataName := by simpa [S] using hc
      exact ⟨d, hc ▸ ed, kd⟩
    · intro c hc
      have hc : c = dataName := by simpa [S] using hc
      exact hc ▸ free
  have hd : dataName ∈ S.columns := by simp [S]
  obtain ⟨t, e, hl⟩ := (does_init ok hd ed md rfl (ph := fun _ => .orig) rfl n t0 (like_start S ok)).1 hn
  have hat := hl.at_ _ hd
  rw [Function.update_self] at hat
  have htw : t.cols weightName = none := by
    rw [hl.rest weightName (by simp [S, dataName_ne.symm]) (by
      intro c hc
      have hc : c = dataName := by simpa [S] using hc
      rw [hc]
      exact weight_ne_temp)]
    exact ew
  have hdat : t.cols dataName = some ⟨default', .complex, fun _ => none, []⟩ := by
    rw [hat.1]
    simp [Setup.newCol, S]
  have hw : ∀ m, initColumnWithDefaultStMan weightName .float m t = .threw t := by
    intro m
    show Act.bind (Act.bind (openColumn weightName .float) _) _ m t = _
    simp only [Act.bind, openColumn, query, htw]
  have hdd : default' ≠ dysco := default_ne
  refine ⟨t, ?_, hdat, hat.2.trans ed, fun m => ?_⟩
  · have e' : initColumnWithDefaultStMan dataName .complex n t0 = .done true (n - 2) t := e
    show Act.bind (initColumnWithDefaultStMan dataName .complex) _ n t0 = _
    rw [Act.bind, e']
    show Act.bind (initColumnWithDefaultStMan weightName .float) _ _ t = _
    rw [Act.bind, hw]
  · have e' : initColumnWithDefaultStMan dataName .complex m t = .done false m t := by
      show Act.bind (Act.bind (openColumn dataName .complex) _) _ m t = _
      simp only [Act.bind, openColumn, query, hdat, if_true]
      rfl
    show Act.bind (initColumnWithDefaultStMan dataName .complex) _ m t = _
    rw [Act.bind, e']
    show Act.bind (initColumnWithDefaultStMan weightName .float) _ _ t = _
    rw [Act.bind, hw]

/-! ## The path of the reordered copy -/

/-- C65: the name of the temporary copy is the path without its trailing slashes followed by `temp`. -/
theorem reorderName_spec (p : Arg) (c : Char) (hc : c ≠ '/') (k : Nat) :
    reorderName (p ++ [c] ++ List.replicate k '/') = some (p ++ [c] ++ "temp".toList) := by
  have : ∀ k q, stripSlashes (List.replicate k '/' ++ q) = stripSlashes q := by
    intro k q
    induction k with
    | zero => rfl
    | succ k ih => rw [List.replicate_succ, List.cons_append, stripSlashes, ih]
  rw [reorderName, List.reverse_append, List.reverse_replicate, this]
  simp [stripSlashes, hc]

/-- C65: a path of slashes only, or an empty one, is read before its beginning; every other path is of the form above. -/
theorem reorderName_none (p : Arg) : reorderName p = none ↔ ∀ c ∈ p, c = '/' := by
  have : ∀ q : Arg, stripSlashes q = none ↔ ∀ c ∈ q, c = '/' := by
    intro q
    induction q with
    | nil => simp [stripSlashes]
    | cons c q ih =>
      by_cases hc : c = '/'
      · subst hc; simp [stripSlashes, ih]
      · simp [stripSlashes, hc]
  rw [reorderName, Option.map_eq_none_iff, this]
  simp

example : reorderName "a.ms//".toList = some "a.mstemp".toList := by rfl

/-- A table of three rows with DATA and WEIGHT_SPECTRUM in DyscoStMan. -/
def sampleTable : Table Nat :=
  ⟨3, fun c => if c = dataName then some ⟨dysco, .complex, fun r => some (r + 10), []⟩
    else if c = weightName then some ⟨dysco, .float, fun r => some (r + 20), []⟩ else none⟩

example : Decompressible sampleTable := by
  refine ⟨⟨⟨dysco, .complex, fun r => some (r + 10), []⟩, ?_, rfl⟩, ⟨⟨dysco, .float, fun r => some (r + 20), []⟩, ?_, rfl⟩, ?_, ?_⟩
  · simp [sampleTable]
  · simp [sampleTable, dataName_ne.symm]
  · simp [sampleTable, temp_data_free]
  · simp [sampleTable, temp_weight_free]

/-- The same table before compression. -/
def plainTable : Table Nat :=
  ⟨3, fun c => if c = dataName then some ⟨default', .complex, fun r => some (r + 10), []⟩
    else if c = weightName then some ⟨default', .float, fun r => some (r + 20), []⟩ else none⟩

example : Compressible plainTable [dataName, weightName] := by
  refine ⟨by simp [dataName_ne], ?_, ?_⟩
  · intro c hc
    have hc : c = dataName ∨ c = weightName := by simpa using hc
    rcases hc with rfl | rfl
    · exact ⟨⟨default', .complex, fun r => some (r + 10), []⟩, by simp [plainTable], (if_neg dataName_ne).symm⟩
    · exact ⟨⟨default', .float, fun r => some (r + 20), []⟩, by simp [plainTable, dataName_ne.symm], (if_pos rfl).symm⟩
  · intro c hc
    have hc : c = dataName ∨ c = weightName := by simpa using hc
    rcases hc with rfl | rfl
    · simp [plainTable, temp_data_free]
    · simp [plainTable, temp_weight_free]

end Dysco.Tools
