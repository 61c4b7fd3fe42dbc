import Verif.WorldTable

/-! # Every table of acceptable data is closed and read back -/

namespace Dysco.World
open Col Multi StMan End BytePacker Layout TimeBlock
open Prepare (Lib encoder)
open Tools (Distribution)

theorem stored_mem {V κ : Type} {n m R q : Nat} {v : Nat → V} {s : State V κ n} (h : StoredUpTo m v R q s) {b : Nat}
    {r : Rows V} (hb : (b, r) ∈ s.stores) : b < q ∧ Filled m v b (rowsIn m R b) r := by
  obtain ⟨g, h1, h2⟩ := h
  rw [h1] at hb
  simp only [List.mem_map, List.mem_range, Prod.mk.injEq] at hb
  obtain ⟨b', hb', rfl, rfl⟩ := hb
  exact ⟨hb', h2 b' hb'⟩

theorem le_last {m r b : Nat} (hm : 0 < m) (hr : 0 < r) (hb : b ≤ (r - 1) / m) : b * m < r := by
  have := (Nat.le_div_iff_mul_le hm).mp hb
  omega

/-- What is stored of a table written in order: the blocks of the table. -/
theorem whole_stored {V κ : Type} {p : Params V κ} {m R : Nat} (hm : 0 < m) (hR : 0 < R) {v : Nat → V}
    {s : State V κ p.threads} (h : WholeOK p m v R s) {b : Nat} {r : Rows V} (hb : (b, r) ∈ s.stores) :
    b * m < R ∧ Filled m v b (rowsIn m R b) r := by
  have mono : ∀ {q : Nat}, b < q → q * m < R → b * m < R := fun h1 h2 =>
    lt_of_le_of_lt (Nat.mul_le_mul_right m (Nat.le_of_lt h1)) h2
  unfold WholeOK at h
  split at h
  · obtain ⟨r', -, h1, h2 | h2⟩ := h
    · rw [h2.stores] at hb; cases hb
    · by_cases h0 : r' = 0
      · rw [(h2.none h0).2.2.1] at hb; cases hb
      · obtain ⟨-, -, -, h3⟩ := h2.some (Nat.pos_of_ne_zero h0)
        obtain ⟨h4, h5⟩ := stored_mem h3 hb
        exact ⟨lt_of_lt_of_le (le_last hm (Nat.pos_of_ne_zero h0) (Nat.le_of_lt h4)) h1, h5⟩
  · obtain ⟨q, -, h1, -, -, -, -, h3⟩ := h
    obtain ⟨h4, h5⟩ := stored_mem h3 hb
    exact ⟨mono (q := q + 1) (by omega) h1, h5⟩
  · obtain ⟨q, -, h1, -, -, -, -, h3⟩ := h
    obtain ⟨h4, h5⟩ := stored_mem h3 hb
    exact ⟨mono (q := q + 1) (by omega) h1, h5⟩
  · obtain ⟨q, -, h1, -, -, -, h3⟩ := h
    obtain ⟨h4, h5⟩ := stored_mem h3 hb
    exact ⟨mono h4 h1, h5⟩
  · obtain ⟨h4, h5⟩ := stored_mem h.2.2.2 hb
    exact ⟨le_last hm hR (Nat.le_of_lt h4), h5⟩
  · obtain ⟨h4, h5⟩ := stored_mem h.2.2.2 hb
    exact ⟨le_last hm hR (Nat.le_of_lt h4), h5⟩
  · obtain ⟨h4, h5⟩ := stored_mem h.2.2 hb
    exact ⟨le_last hm hR (Nat.le_of_lt_succ h4), h5⟩
  · obtain ⟨h4, h5⟩ := stored_mem h.2.2 hb
    exact ⟨le_last hm hR (Nat.le_of_lt_succ h4), h5⟩
  · obtain ⟨h4, h5⟩ := stored_mem h.2 hb
    exact ⟨le_last hm hR (Nat.le_of_lt_succ h4), h5⟩
  · obtain ⟨h4, h5⟩ := stored_mem h.2 hb
    exact ⟨le_last hm hR (Nat.le_of_lt_succ h4), h5⟩
  · exact h.elim

variable {κ : Type} {c : Nat} {α : Fin c → Type} {P : (i : Fin c) → Params (DataRow (α i)) κ}

/-- The encoder threads get whole blocks of the table. -/
theorem encode_rows {rows q : Nat} {v : (i : Fin c) → Nat → DataRow (α i)} {antOf : Nat → Nat × Nat}
    {prog : List (MOp fun i => DataRow (α i))} (h : WholeTable P rows (q * rows) v antOf prog) {k : κ} {S : MState P}
    (hr : MReachable (minitial P k 0 (fun _ _ => none) 0 prog) S) {i : Fin c} {t : Fin (P i).threads} {b : Nat}
    {r : Rows (DataRow (α i))} (ht : (S.cols i).threads t = .encode b r) :
    b < q ∧ r.len = rows ∧ ∀ j, j < rows → r.get j = some (v i (b * rows + j)) := by
  have hmore := h.more
  have hpos := h.pos
  have hrpb := whole_rpb h.threads h.pos (by omega) h.small h.same (fun i _ => h.diff i) (.inr ⟨rfl, hmore⟩)
    h.whole hr
  have hg := good_reachable h.threads hr
  obtain ⟨done, hd⟩ := hg.cols i
  obtain ⟨tail, hsp, -⟩ := hd.split
  have hwi := h.whole i
  rw [← hsp] at hwi
  have hw := alone_whole hd hrpb hwi
  have hok := whole_ok (h.threads i) h.pos (by omega) h.small (h.same i) (fun _ => h.diff i) (.inr ⟨rfl, hmore⟩)
    hw (hd.reach _)
  have hcore := (initial_reachable_inv (h.threads i) (hd.reach (left S i ++ tail))).core
  have hst := encoding_stored hcore (t := t) (b := b) (r := r) ht
  obtain ⟨h1, h2⟩ := whole_stored h.pos (by omega) hok hst
  have hb : b < q := lt_of_mul_lt_mul_right h1 (Nat.zero_le _)
  have hin : rowsIn rows (q * rows) b = rows := by
    have : (b + 1) * rows ≤ q * rows := Nat.mul_le_mul_right _ hb
    rw [Nat.add_mul, Nat.one_mul] at this
    unfold rowsIn
    omega
  rw [hin] at h2
  exact ⟨hb, le_antisymm h2.len h2.count, h2.get⟩

/-- Every step of the columns is a step with the file, if the encoder returns. -/
theorem lift_step {K : Codecs α} {w : WState P} {l : MLabel P} {S : MState P}
    (henc : ∀ i t b r, (w.cols.cols i).threads t = .encode b r → ∃ col d, w.man.columns[i.val]? = some col ∧
      Encodes (K i w.man.rowsPerBlock col) col w.man.rowsPerBlock r d) (e : mstep w.cols l = some S) :
    ∃ m', WStep K w l ⟨S, m'⟩ := by
  have : ∃ m', Effect K w.cols l w.man m' := by
    unfold Effect
    cases l with
    | thread i t =>
      simp only
      split
      · rename_i b r hx
        obtain ⟨col, d, h1, h2⟩ := henc i t b r hx
        exact ⟨_, col, d, h1, h2, rfl⟩
      · exact ⟨_, rfl⟩
    | client junk =>
      simp only
      split
      · obtain ⟨a, ha, -⟩ := TimeBlock.maxAntennaIndex_spec (antennas (w.cols.cols _).buffer)
        exact ⟨_, a, ha, rfl⟩
      · split
        · exact ⟨_, ⟨0, fun _ => 0⟩, rfl⟩
        · exact ⟨_, rfl⟩
      · exact ⟨_, rfl⟩
    | spuriousThread i t => exact ⟨_, rfl⟩
    | spuriousClient i => exact ⟨_, rfl⟩
  obtain ⟨m', h⟩ := this
  exact ⟨m', e, h⟩

theorem WReach.trans {K : Codecs α} {a b d : WState P} (h : WReach K a b) (h' : WReach K b d) : WReach K a d := by
  induction h' with
  | start => exact h
  | step _ e ih => exact .step ih e

/-- Every run of the columns is one with the file. -/
theorem world_lift {K : Codecs α} {w0 w : WState P} (h : WReach K w0 w)
    (henc : ∀ w, WReach K w0 w → ∀ i t b r, (w.cols.cols i).threads t = .encode b r → ∃ col d,
      w.man.columns[i.val]? = some col ∧ Encodes (K i w.man.rowsPerBlock col) col w.man.rowsPerBlock r d)
    {ls : List (MLabel P)} {S : MState P} (e : mrun w.cols ls = some S) : ∃ w', WReach K w w' ∧ w'.cols = S := by
  induction ls generalizing w with
  | nil =>
    injection e with e
    exact ⟨w, .start, e⟩
  | cons l ls ih =>
    obtain ⟨S1, e1, e2⟩ := Option.bind_eq_some_iff.mp e
    obtain ⟨m1, h1⟩ := lift_step (henc w h) e1
    obtain ⟨w', h2, h3⟩ := ih (w := ⟨S1, m1⟩) (.step h h1) e2
    exact ⟨w', WReach.trans (.step .start h1) h2, h3⟩

theorem encodes_of_writes {β : Type} {K : Codec β} {col : Column} {rows : Nat} {r : Rows (DataRow β)} (hb : Supported col.bits)
    (hs : col.blockSize = blockSize (col.metaCount rows col.antennaCount) (col.symCount rows) col.bits)
    {dith : Nat → Nat} {fuel : Nat} {metaB : Buf Fl} {sym : Buf Nat}
    (h : Writes (K.enc dith fuel (toBlock K.zero r)) (col.metaCount rows col.antennaCount) (col.symCount rows)
      (2 ^ col.bits) metaB sym) : ∃ d, Encodes K col rows r d := by
  obtain ⟨blk, _, g1, _⟩ := writeBlock_spec hb h
  obtain ⟨d, ed, _⟩ := g1 ⟨col.blockSize, fun _ => 0⟩ ⟨col.symCount rows, fun _ => 0⟩ hs rfl
  exact ⟨d, dith, fuel, _, _, rfl, rfl, ed⟩

theorem weight_encodes {col : Column} {rows : Nat} (hbits : Supported col.bits)
    (hsize : col.blockSize = blockSize (col.metaCount rows col.antennaCount) (col.symCount rows) col.bits)
    (hk : col.isData = false) {q : Nat} {v : Nat → DataRow Fl} (hf : FineWeights col (q * rows) v) {b : Nat} (hb : b < q)
    {r : Rows (DataRow Fl)} (hl : r.len = rows)
    (hg : ∀ j, j < rows → (toBlock (.fin 0) r).get j = v (b * rows + j)) :
    ∃ d, Encodes (weightCodec col) col rows r d := by
  choose mn hmn using fun row ch => exists_isMin hf.pols (weightAt col.nPol v row ch)
  have hval : ∀ j ch po, j < rows → ch < col.nCh → po < col.nPol → ∃ x,
      (v (b * rows + j)).vis.get (ch * col.nPol + po) = .fin x ∧ weightAt col.nPol v (b * rows + j) ch po = x ∧ 0 ≤ x ∧
      x < 2 ^ (128 : ℤ) ∧ Fl.Repr Fl.binary32 x := by
    intro j ch po hj hch hpo
    obtain ⟨x, hx, h2⟩ := hf.float _ (ch * col.nPol + po) (flat_lt hb hj) (flat_lt hch hpo)
    exact ⟨x, hx, by unfold weightAt; rw [hx]; rfl, h2⟩
  have hlen : (toBlock (.fin 0) r).len = rows := hl
  obtain ⟨M, sym', -, hwr, -⟩ := weightWrites (nCh := col.nCh) (nPol := col.nPol) hbits hf.pols
    (rows := toBlock (.fin 0) r) (W := fun j => weightAt col.nPol v (b * rows + j)) (m := fun j => mn (b * rows + j))
    (by
      intro j hj
      rw [hlen] at hj
      rw [hg j hj]
      refine ⟨hf.len _ (flat_lt hb hj), fun ch po hch hpo => ?_⟩
      obtain ⟨x, h1, h2, -⟩ := hval j ch po hj hch hpo
      rw [h1, ← h2])
    (by
      intro j ch po hj hch hpo
      rw [hlen] at hj
      obtain ⟨x, h1, h2, h3⟩ := hval j ch po hj hch hpo
      simp only [h2]
      exact h3)
    (fun j ch _ _ => hmn _ ch)
  have e2 : col.metaCount rows col.antennaCount = Weight.metaDataFloatCount := by simp [Column.metaCount, hk]
  have e3 : col.symCount rows = Weight.symbolCount rows col.nCh := by simp [Column.symCount, hk]
  refine encodes_of_writes (K := weightCodec col) (dith := fun _ => 0) (fuel := 0) (metaB := ⟨1, fun _ => .fin M⟩)
    (sym := sym') hbits hsize ?_
  rw [e2, e3]
  rw [hlen] at hwr
  exact hwr

/-- The encoder of every column returns. -/
theorem column_encodes {rows ants : Nat} {mt : Man} (h : NewTable rows ants mt) {nRow i : Nat} {col : Column}
    (hc : (newTable nRow rows ants mt).columns[i]? = some col) {sq : Fl → Fl} (hsq : AF.SqrtMono sq) {e : Stochastic.Encoder}
    {gd : Grid} (hd : Quantised e mt.dataBitCount gd)
    (hdb : Supported mt.dataBitCount) (hwb : Supported mt.weightBitCount) (k : Kind) (hk : col.isData = k.isData)
    {q : Nat} {v : Nat → DataRow (Elem k)} {antOf : Nat → Nat × Nat}
    (hants : ∀ r, r < q * rows → ((v r).antenna1, (v r).antenna2) = antOf r)
    (hf : Fine col rows (q * rows) ants antOf k v) {b : Nat} (hb : b < q) {r : Rows (DataRow (Elem k))}
    (hl : r.len = rows) (hg : ∀ j, j < rows → r.get j = some (v (b * rows + j))) :
    ∃ d, Encodes (codec sq e antOf k rows col) col rows r d := by
  obtain ⟨c0, -, n1, -, -, n4, -, hant, hsize⟩ := newTable_column h hc
  have hr0 := h.rowCount.1
  have hbits : Supported col.bits := by rw [n4]; split <;> assumption
  have htb : ∀ zero, TableBlock rows v b (toBlock zero r) := by
    intro zero
    refine ⟨hl, fun j hj => ?_⟩
    simp only [toBlock]
    rw [hg j hj, Option.getD_some]
  rw [← hant] at hsize
  cases k with
  | data =>
    have hbit : col.bits = mt.dataBitCount := by rw [n4, ← n1, hk]; rfl
    have hf : FineData col rows (q * rows) ants antOf v := hf
    rw [← hbit] at hd
    obtain ⟨bd, l, L, δ, u2, -⟩ := hd
    have hD : DataRows (col.nPol * col.nCh) (q * rows) v antOf fun row => (v row).vis.get :=
      ⟨hf.len, hants, fun _ _ _ _ => rfl⟩
    have hH := hD.block hb (htb ⟨.fin 0, .fin 0⟩)
    have hmeta : col.metaCount rows col.antennaCount = dataMetaCount col.norm rows col.nPol col.nCh ants := by
      have : col.isData = true := hk
      simp [Column.metaCount, this, hant]
    have hsym : col.symCount rows = symbolCount rows col.nPol col.nCh := by
      have : col.isData = true := hk
      simp [Column.symCount, this]
    have hw : ∃ dith fuel metaB sym, Writes (encData col.norm sq e col.nPol col.nCh ants dith fuel
        (toBlock ⟨.fin 0, .fin 0⟩ r)) (dataMetaCount col.norm rows col.nPol col.nCh ants)
        (symbolCount rows col.nPol col.nCh) e.quantCount metaB sym := by
      have hA : col.norm = .af → 0 < col.nCh ∧ AF.AntennasBelow rows ants (fun r => antOf (b * rows + r)) :=
        fun hn => ⟨(hf.af hn).1, fun r hr => (hf.af hn).2.1 _ (flat_lt hb hr)⟩
      by_cases hn : col.norm = .af
      · obtain ⟨a1, a2, a3, a4, a5, a6⟩ := hf.af hn
        obtain ⟨N, m', s', hN⟩ := AF.af_ends hsq u2.table u2.float true (fun _ => 0) a1 hr0 (hA hn).2 a4 a5 a6 hH
          (fun r i hr hi => a3 _ i (flat_lt hb hr) hi)
          ⟨dataMetaCount .af rows col.nPol col.nCh ants, fun _ => .nan⟩ (by
            have e1 : ants * col.nPol = col.nPol * ants := Nat.mul_comm _ _
            have e2 : col.nPol * (col.nCh + ants) = col.nPol * col.nCh + col.nPol * ants := Nat.mul_add _ _ _
            simp only [dataMetaCount, AF.metaDataCount]
            omega)
          ⟨symbolCount rows col.nPol col.nCh, fun _ => 0⟩ (by show _ ≤ symbolCount _ _ _; rw [symbolCount_eq])
        rcases dataWrites col.norm sq u2.table hH hr0 hA (fun _ => 0) N with ⟨-, hx⟩ | hx
        · exfalso
          have := hx ⟨dataMetaCount col.norm rows col.nPol col.nCh ants, fun _ => .nan⟩
            ⟨symbolCount rows col.nPol col.nCh, fun _ => 0⟩ rfl (fun _ _ => rfl) rfl
          rw [hn] at this
          simp only [encData] at this
          rw [hN N (Nat.le_refl _)] at this
          cases this
        · exact ⟨_, N, hx⟩
      · rcases dataWrites col.norm sq u2.table hH hr0 hA (fun _ => 0) 0 with ⟨hx, -⟩ | hx
        · exact absurd hx hn
        · exact ⟨_, 0, hx⟩
    obtain ⟨dith, fu, metaB, sym, hw⟩ := hw
    rw [u2.count] at hw
    refine encodes_of_writes (K := dataCodec sq e antOf rows col) (dith := dith) (fuel := fu) (metaB := metaB) (sym := sym)
      hbits hsize ?_
    rw [hmeta, hsym]
    simp only [dataCodec, hant]
    exact hw
  | weight => exact weight_encodes hbits hsize hk hf hb hl (htb (.fin 0)).2

/-- The client of a table with acceptable data always gets to the end: from every state that any schedule leads to, the
table can be closed, with some encoding of the blocks that are left; and a state in which neither the client nor any
thread can go on is one in which the table was closed. (Every schedule gets there: `multi_steps_bounded`.) -/
theorem table_closes {kind : Fin c → Kind}
    {P : (i : Fin c) → Params (DataRow (Elem (kind i))) κ} {rows q ants : Nat}
    {v : (i : Fin c) → Nat → DataRow (Elem (kind i))} {antOf : Nat → Nat × Nat}
    {prog : List (MOp fun i => DataRow (Elem (kind i)))} (hT : WholeTable P rows (q * rows) v antOf prog)
    (hants : AntennaCount rows antOf ants) {mt : Man} (h : NewTable rows ants mt) (hc : mt.columns.length = c)
    (hc0 : 0 < c) (hk : ∀ (i : Fin c) c0, mt.columns[i.val]? = some c0 → c0.isData = (kind i).isData)
    (hdb : Supported mt.dataBitCount) (hwb : Supported mt.weightBitCount)
    {sq : Fl → Fl} (hsq : AF.SqrtMono sq) {e : Stochastic.Encoder} {gd : Grid} (hd : Quantised e mt.dataBitCount gd)
    {nRow : Nat} (hf : ∀ (i : Fin c) col, (newTable nRow rows ants mt).columns[i.val]? = some col →
      Fine col rows (q * rows) ants antOf (kind i) (v i))
    {k : κ} {w : WState P} (hw : WReach (fun i => codec sq e antOf (kind i)) (winitial P k nRow mt prog) w)
    (junk : (i : Fin c) → Nat → DataRow (Elem (kind i))) :
    (∃ w', WReach (fun i => codec sq e antOf (kind i)) w w' ∧ w'.cols.pc = .closed) ∧
    ((∀ l w', MLabel.real l = true → ¬ WStep (fun i => codec sq e antOf (kind i)) w l w') → w.cols.pc = .closed) := by
  obtain ⟨f1, -, f3, -⟩ := newTable_fields (nRow := nRow) h
  have hlen : (newTable nRow rows ants mt).columns.length = c := by
    rw [f3, (layout_spec h.rowCount.2 h.antCount (configured mt mt.columns) 0 (by simpa using h.total)).2.2.1, ← hc]
    simp [configured]
  have hmore := hT.more
  have hpos := hT.pos
  have henc : ∀ w, WReach (fun i => codec sq e antOf (kind i)) (winitial P k nRow mt prog) w → ∀ i t b r,
      (w.cols.cols i).threads t = .encode b r → ∃ col d, w.man.columns[i.val]? = some col ∧
        Encodes (codec sq e antOf (kind i) w.man.rowsPerBlock col) col w.man.rowsPerBlock r d := by
    intro w hw i t b r ht
    have hi := world_inv hT.threads hw
    obtain ⟨hb, hl, hg⟩ := encode_rows hT hi.reach ht
    rcases hi.bytes with ⟨hx, -, -⟩ | ⟨hx, -, ants', ops, hlo, hm, -⟩
    · exact absurd ht (by
        have := unlaid_threads hT.threads hi.reach hx i t
        intro hy
        exact (this b r hy).elim)
    have hrp := (whole_rpb hT.threads hT.pos (by omega) hT.small hT.same (fun i _ => hT.diff i) (.inr ⟨rfl, hmore⟩)
      hT.whole hi.reach).resolve_left hx
    obtain ⟨-, ha⟩ := laid_antennas hT hlo
    obtain rfl := hants.unique ha
    rw [hrp] at hm
    obtain ⟨g1, g2⟩ := blockSteps_columns ops (newTable nRow rows ants mt)
    rw [← hm] at g1 g2
    obtain ⟨col, hcol⟩ : ∃ col, (newTable nRow rows ants mt).columns[i.val]? = some col :=
      ⟨_, List.getElem?_eq_getElem (by rw [hlen]; exact i.isLt)⟩
    obtain ⟨c0, y0, y1, -⟩ := newTable_column h hcol
    obtain ⟨dd, hdd⟩ := column_encodes h hcol hsq hd hdb hwb (kind i) (y1.trans (hk i c0 y0)) (hT.ants i)
      (hf i _ hcol) hb hl hg
    refine ⟨col, dd, ?_, ?_⟩
    · rw [g1]; exact hcol
    · rw [g2, f1]; exact hdd
  have hi := world_inv hT.threads hw
  obtain ⟨ls, S', -, e1, e2⟩ := multi_can_finish hT.threads hT.maxCache hi.reach junk
  obtain ⟨w', r1, r2⟩ := world_lift hw henc e1
  refine ⟨⟨w', r1, ?_⟩, fun hno => ?_⟩
  rotate_left
  · obtain ⟨-, -, h3, -⟩ := multi_whole hT.threads hT.maxCache hc0 hT.pos (by omega) hT.small hT.same
      (fun i _ => hT.diff i) (.inr ⟨rfl, hmore⟩) hT.whole hi.reach
    have none : ∀ l, MLabel.real l = true → mstep w.cols l = none := by
      intro l hl
      cases hx : mstep w.cols l with
      | none => rfl
      | some S =>
        obtain ⟨m', hm'⟩ := lift_step (henc w hw) hx
        exact (hno l _ hl hm').elim
    exact h3 junk (none _ rfl) (fun i t => none _ rfl)
  have hi' := world_inv hT.threads (hw.trans r1)
  obtain ⟨h1, h2, -⟩ := multi_whole hT.threads hT.maxCache hc0 hT.pos (by omega) hT.small hT.same (fun i _ => hT.diff i)
    (.inr ⟨rfl, hmore⟩) hT.whole hi'.reach
  rw [r2] at h1 h2 ⊢
  exact finished_closed hT.threads hc0 (r2 ▸ hi'.reach) (fun i => whole_close (hT.whole i)) e2 h1 h2

/-! ## The hypotheses can be met -/

/-- One data column and one weight column. Not in the code. -/
def sampleKind : Fin 2 → Kind
  | 0 => .data
  | 1 => .weight

/-- Six rows of four polarisations and sixteen channels. One visibility is infinite. -/
def sampleVis (r j : Nat) : Cx :=
  if j = 3 then ⟨.inf true, .fin 1⟩ else ⟨.fin (r : ℚ), .fin (-(j : ℚ))⟩

/-- The rows of both columns. Not in the code. -/
def sampleTable : (i : Fin 2) → Nat → DataRow (Elem (sampleKind i))
  | 0, r => ⟨0, 1, ⟨64, sampleVis r⟩⟩
  | 1, r => sampleRow r

/-- The parameters of both columns. Not in the code. -/
def sampleCols : (i : Fin 2) → Params (DataRow (Elem (sampleKind i))) Nat
  | 0 => ⟨2, 2, fun r => r / 3, fun a b => a != b, fun _ _ => id⟩
  | 1 => sampleParams

/-- The columns are written in turns. -/
def sampleProg : List (MOp fun i => DataRow (Elem (sampleKind i))) :=
  [.put 0 0 (sampleTable 0 0), .put 1 0 (sampleTable 1 0), .put 0 1 (sampleTable 0 1), .put 1 1 (sampleTable 1 1),
    .put 0 2 (sampleTable 0 2), .put 1 2 (sampleTable 1 2), .put 1 3 (sampleTable 1 3), .put 0 3 (sampleTable 0 3),
    .put 0 4 (sampleTable 0 4), .put 1 4 (sampleTable 1 4), .put 0 5 (sampleTable 0 5), .put 1 5 (sampleTable 1 5), .close]

theorem sample_whole : WholeTable sampleCols 3 (2 * 3) sampleTable (fun _ => (0, 1)) sampleProg where
  threads i := match i with | 0 => by decide | 1 => by decide
  maxCache i := match i with | 0 => by decide | 1 => by decide
  pos := by decide
  more := by decide
  small := by decide
  same i r h1 h2 := by
    have : r / 3 = 0 := by omega
    match i with
    | 0 => simp [sampleCols, this]
    | 1 => simp [sampleCols, sampleParams, this]
  diff i := match i with | 0 => by decide | 1 => by decide
  ants i r _ := match i with | 0 => rfl | 1 => rfl
  whole i := match i with
    | 0 => by simp [sampleProg, ops, Whole]
    | 1 => by simp [sampleProg, ops, Whole]

/-- The same table with five rows: the second block is incomplete. -/
example : WholeTable sampleCols 3 5 sampleTable (fun _ => (0, 1)) (sampleProg.filter fun o => match o with
    | .put _ r _ => r < 5
    | _ => true) where
  threads := sample_whole.threads
  maxCache := sample_whole.maxCache
  pos := by decide
  more := by decide
  small := by decide
  same := sample_whole.same
  diff := sample_whole.diff
  ants i r _ := match i with | 0 => rfl | 1 => rfl
  whole i := match i with
    | 0 => by simp [sampleProg, ops, Whole]
    | 1 => by simp [sampleProg, ops, Whole]

theorem sample_fine (i : Fin 2) (col : Column) (hc : (newTable 6 3 2 tableMan).columns[i.val]? = some col) :
    Fine col 3 (2 * 3) 2 (fun _ => (0, 1)) (sampleKind i) (sampleTable i) := by
  obtain ⟨c0, k0, k1, k2, k3, k4, k5, k6, k7⟩ := newTable_column tableMan_new hc
  match i with
  | 0 =>
    obtain rfl : (⟨true, 4, 16, 0, .af, 0, 0, 0⟩ : Column) = c0 := by simpa [tableMan] using k0
    have hn : col.norm = .row := by rw [k5]; decide
    have hlen : col.nPol * col.nCh = 64 := by simp only [k2, k3]
    refine FineData.mk ?_ ?_ ?_ ?_
    · intro row _; rw [hlen]; rfl
    · intro row j hr hj
      rw [hlen] at hj
      show Fl.IsFloat (sampleVis row j).re ∧ Fl.IsFloat (sampleVis row j).im
      unfold sampleVis
      split_ifs
      · exact ⟨fun q hq => (Fl.noConfusion hq), AF.isFloat_of_cast (by decide +kernel)⟩
      · constructor
        · intro q hq
          injection hq with hq; subst hq
          refine ⟨Fl.repr32_nat (by omega), ?_⟩
          rw [abs_of_nonneg (Nat.cast_nonneg _)]
          have : (row : ℚ) ≤ 6 := by exact_mod_cast (by omega : row ≤ 6)
          exact lt_of_le_of_lt this (by norm_num)
        · intro q hq
          injection hq with hq; subst hq
          refine ⟨(Fl.repr32_nat (by omega)).neg, ?_⟩
          rw [abs_neg, abs_of_nonneg (Nat.cast_nonneg _)]
          have : (j : ℚ) ≤ 64 := by exact_mod_cast (by omega : j ≤ 64)
          exact lt_of_le_of_lt this (by norm_num)
    · intro _ row j m hr hj hm
      rw [hlen] at hj
      have hm : Counted (sampleVis row j) m := hm
      have h1 : (row : ℚ) ≤ 6 := by exact_mod_cast (by omega : row ≤ 6)
      have h2 : (j : ℚ) ≤ 64 := by exact_mod_cast (by omega : j ≤ 64)
      have h3 : (64 : ℚ) ≤ 2 ^ (126 : ℤ) := by norm_num
      obtain ⟨x, hx, ⟨y, hy, rfl⟩ | ⟨hy, rfl⟩⟩ := hm
      · unfold sampleVis at hx hy
        split_ifs at hx hy
        injection hx with hx
        injection hy with hy
        subst hx; subst hy
        rw [abs_neg, abs_of_nonneg (Nat.cast_nonneg _), abs_of_nonneg (Nat.cast_nonneg _)]
        exact max_le (by linarith) (by linarith)
      · unfold sampleVis at hx
        split_ifs at hx
        injection hx with hx
        subst hx
        rw [abs_of_nonneg (Nat.cast_nonneg _)]
        linarith
    · intro hx; rw [hn] at hx; cases hx
  | 1 =>
    obtain rfl : (⟨false, 4, 16, 0, .af, 0, 0, 0⟩ : Column) = c0 := by simpa [tableMan] using k0
    simp only [] at k2 k3
    refine FineWeights.mk (by rw [k2]; decide) (by rw [k3]; decide) ?_ ?_
    · intro row _; rw [k2, k3]; rfl
    · intro row j hr hj
      have e : ((row : ℚ) + 1) = ((row + 1 : Nat) : ℚ) := by push_cast; rfl
      have h7 : ((row + 1 : Nat) : ℚ) ≤ 7 := by exact_mod_cast (by omega : row + 1 ≤ 7)
      exact ⟨((row + 1 : Nat) : ℚ), by rw [← e]; rfl, by positivity, lt_of_le_of_lt h7 (by norm_num),
        Fl.repr32_nat (by omega)⟩

/-- The table is written by three threads and closed, for some schedule, and read back. -/
example : ∃ (e : Stochastic.Encoder) (w : WState sampleCols),
    WReach (fun i => codec AF.coarseSqrt e (fun _ => (0, 1)) (sampleKind i)) (winitial sampleCols 0 6 tableMan sampleProg) w ∧
    w.cols.pc = .closed ∧ ∃ r man, openFile 6 tableMan w.man.file = .ok r ∧ prepare r = (man, true) ∧
      ∀ i : Fin 2, ∃ col, (newTable 6 3 2 tableMan).columns[i.val]? = some col ∧
        ReadsBack (codec AF.coarseSqrt e (fun _ => (0, 1)) (sampleKind i) 3 col) i col 3 (2 * 3) man
          (Close AF.coarseSqrt e (grid .truncatedGaussian 8) col 3 (2 * 3) 2 (fun _ => (0, 1)) (sampleKind i) (sampleTable i)) := by
  obtain ⟨p0, Q, h⟩ := Quantile.gslNormal_exists 2.5
  obtain ⟨e, _, h1, _⟩ := Prepare.encoder_determined ⟨fun _ => 0, p0, Q, fun _ => .nan⟩ 0 .truncatedGaussian 8 (by norm_num)
    (fun _ => .nan) (fun _ => .nan) (fun _ => .nan) (fun _ => .nan)
  have hants : AntennaCount 3 (fun _ => ((0, 1) : Nat × Nat)) 2 :=
    ⟨fun _ _ => ⟨Nat.two_pos, Nat.one_lt_two⟩, 0, by decide, .inr rfl⟩
  have hk : ∀ (i : Fin 2) c0, tableMan.columns[i.val]? = some c0 → c0.isData = (sampleKind i).isData := by
    intro i c0 h0
    match i with
    | 0 => obtain rfl : (⟨true, 4, 16, 0, .af, 0, 0, 0⟩ : Column) = c0 := by simpa [tableMan] using h0
           rfl
    | 1 => obtain rfl : (⟨false, 4, 16, 0, .af, 0, 0, 0⟩ : Column) = c0 := by simpa [tableMan] using h0
           rfl
  have hb : Supported 8 := by unfold Supported; omega
  have hd : Quantised e tableMan.dataBitCount (grid .truncatedGaussian 8) :=
    concrete_quantised (Or.inr ⟨rfl, by decide, h⟩) (by decide) h1
  obtain ⟨⟨w, w1, w2⟩, -⟩ := table_closes sample_whole hants tableMan_new rfl (by decide) hk hb hb AF.coarseSqrt_mono
    hd sample_fine (w := winitial sampleCols 0 6 tableMan sampleProg) (k := 0) .start sampleTable
  refine ⟨e, w, w1, w2, table_end_to_end (q := 2) sample_whole (by decide) (Nat.le_refl _) hants tableMan_new rfl (by decide) hk hb hb AF.coarseSqrt_mono hd
    sample_fine w1 w2 6 tableMan (List.forall₂_same.mpr fun x _ => ?_)⟩
  exact ⟨rfl, rfl, rfl⟩

/-! The other theorems of this group on the same table. -/

theorem sample_ants : AntennaCount 3 (fun _ => ((0, 1) : Nat × Nat)) 2 :=
  ⟨fun _ _ => ⟨Nat.two_pos, Nat.one_lt_two⟩, 0, by decide, .inr rfl⟩

example {K : Codecs fun i => Elem (sampleKind i)} {w : WState sampleCols}
    (h : WReach K (winitial sampleCols 0 6 tableMan sampleProg) w) :
    w.cols.nBlocks = w.man.nBlocks ∧ WInv K 0 6 tableMan sampleProg w :=
  ⟨blocks_agree sample_whole.threads h, world_inv sample_whole.threads h⟩

example {K : Codecs fun i => Elem (sampleKind i)} {w : WState sampleCols}
    (h : WReach K (winitial sampleCols 0 6 tableMan sampleProg) w) (hcl : w.cols.pc = .closed) :
    ∃ ops : List BlockOp, w.man = ops.foldl blockStep (newTable 6 3 2 tableMan) := by
  obtain ⟨ops, h1, -⟩ := world_closed sample_whole sample_ants tableMan_new rfl (by decide) h hcl
  exact ⟨ops, h1⟩

example {m n : Nat} (hl : LaidOut 0 sampleProg sampleCols m n) : m = 3 ∧ AntennaCount 3 (fun _ => (0, 1)) n :=
  laid_antennas sample_whole hl

/-- A thread that encodes a block of this table has all three rows of it. -/
example {S : MState sampleCols} (hr : MReachable (minitial sampleCols 0 0 (fun _ _ => none) 0 sampleProg) S)
    {i : Fin 2} {t : Fin (sampleCols i).threads} {b : Nat} {r : Rows (DataRow (Elem (sampleKind i)))}
    (ht : (S.cols i).threads t = .encode b r) : b < 2 ∧ r.len = 3 :=
  have := encode_rows sample_whole hr ht
  ⟨this.1, this.2.1⟩

/-- When it is closed, each column has made a run of its own. -/
example {S : MState sampleCols} (hr : MReachable (minitial sampleCols 0 0 (fun _ _ => none) 0 sampleProg) S)
    (hcl : S.pc = .closed) : S.rowsPerBlock = 3 := by
  obtain ⟨s, -, -, h⟩ := table_run sample_whole hr hcl (0 : Fin 2)
  exact h

end Dysco.World
