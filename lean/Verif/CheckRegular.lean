import Verif.CheckProps
import Verif.ColumnWhole
import Verif.BlockProps

/-!
# Consequences of a passed ordering check: C53
-/

namespace Dysco.Tools

variable {K : Type}

theorem flatten_replicate_get {β : Type} (l : List β) : ∀ (n r : Nat), r < n * l.length →
    (List.replicate n l).flatten[r]? = l[r % l.length]? := by
  intro n
  induction n with
  | zero => intro r h; omega
  | succ n ih =>
    intro r h
    rw [List.replicate_succ, List.flatten_cons]
    by_cases hr : r < l.length
    · rw [List.getElem?_append_left hr, Nat.mod_eq_of_lt hr]
    · rw [List.getElem?_append_right (by omega), ih _ (by rw [Nat.add_mul] at h; omega),
        Nat.mod_eq_sub_mod (a := r) (by omega)]

theorem run_keys (differs : K → K → Bool) : ∀ (rs : List (Row K)) (k : K), Run differs k rs →
    ∀ (i : Nat) (a b : K), (rs.map Row.key)[i]? = some a → (k :: rs.map Row.key)[i]? = some b → differs a b = false := by
  intro rs
  induction rs with
  | nil => intro k _ i a b h; simp at h
  | cons r rs ih =>
    intro k h i a b ha hb
    cases i with
    | zero =>
      simp at ha hb
      subst ha hb
      exact h.1
    | succ i =>
      exact ih r.key h.2 i a b (by simpa using ha) (by simpa using hb)

theorem lastKey_get (k : K) (rs : List (Row K)) : (k :: rs.map Row.key)[rs.length]? = some (lastKey k rs) := by
  induction rs generalizing k with
  | nil => simp [lastKey]
  | cons r rs ih => exact (by simpa [lastKey] using ih r.key)

theorem runs_keys (differs : K → K → Bool) (m : Nat) (hm : 0 < m) : ∀ (bs : List (List (Row K))) (k : K),
    Runs differs k bs → (∀ b ∈ bs, b.length = m) →
    ∀ (i : Nat) (a b : K), (bs.flatten.map Row.key)[i]? = some a → (k :: bs.flatten.map Row.key)[i]? = some b →
      differs a b = decide (i % m = 0) := by
  intro bs
  induction bs with
  | nil => intro k _ _ i a b h; simp at h
  | cons b0 bs ih =>
    intro k h hl i a b ha hb
    obtain ⟨r, rs, rfl, h1, h2, h3⟩ := h
    have hlen : rs.length + 1 = m := by simpa using hl _ (List.mem_cons_self)
    simp only [List.flatten_cons, List.cons_append, List.map_cons, List.map_append] at ha hb
    by_cases hi0 : i = 0
    · subst hi0
      simp at ha hb
      subst ha hb
      simpa using h1
    · by_cases him : i < m
      · rw [Nat.mod_eq_of_lt him]
        simp only [hi0, decide_false]
        obtain ⟨j, rfl⟩ := Nat.exists_eq_succ_of_ne_zero hi0
        refine run_keys differs rs r.key h2 j a b ?_ ?_
        · rw [Nat.succ_eq_add_one, List.getElem?_cons_succ, List.getElem?_append_left (by simp; omega)] at ha
          exact ha
        · rw [Nat.succ_eq_add_one, List.getElem?_cons_succ] at hb
          rw [← hb, ← List.cons_append, List.getElem?_append_left (by simp; omega)]
      · rw [Nat.mod_eq_sub_mod (by omega)]
        refine ih _ h3 (fun b hb => hl b (List.mem_cons_of_mem _ hb)) (i - m) a b ?_ ?_
        · rw [← ha, ← List.cons_append, List.getElem?_append_right (by simp; omega)]
          congr 1
          simp; omega
        · rw [← hb]
          by_cases hie : i = m
          · subst hie
            have e := lastKey_get r.key rs
            rw [← hlen, List.getElem?_cons_succ, ← List.cons_append, List.getElem?_append_left (by simp), e]
            simp
          · obtain ⟨j, hj⟩ : ∃ j, i - m = j + 1 := ⟨i - m - 1, by omega⟩
            obtain ⟨i', rfl⟩ := Nat.exists_eq_succ_of_ne_zero hi0
            rw [hj, List.getElem?_cons_succ, Nat.succ_eq_add_one, List.getElem?_cons_succ, ← List.cons_append,
              List.getElem?_append_right (by simp; omega)]
            congr 1
            simp; omega

/-- What a passed check says: blocks of `m` rows, the same baselines at the same position of each. -/
structure Regular (differs : K → K → Bool) (rows : List (Row K)) (m : Nat) : Prop where
  pos : 0 < m
  /-- the number of rows is a multiple of the block size -/
  whole : m ∣ rows.length
  /-- the key changes exactly at the multiples of `m` -/
  keys : ∀ i (h : i < rows.length), 0 < i → differs rows[i].key rows[i - 1].key = decide (i % m = 0)
  /-- every row has the antennas of the row at the same position of the first block -/
  ants : ∀ i (h : i < rows.length), (rows[i]'h).ants = (rows[i % m]'(Nat.lt_of_le_of_lt (Nat.mod_le _ _) h)).ants

/-- C53: if the check passes, the table is regular, for exactly one block size not larger than the table. -/
theorem check_regular (differs : K → K → Bool) (rows : List (Row K)) (h : check differs rows = .ok ()) :
    ∃ m, Regular differs rows m ∧ m ≤ rows.length ∧ ∀ b ∈ blocks differs rows, b.length = m := by
  obtain ⟨⟨r, hr, hd⟩, hall⟩ := (check_passes_iff differs rows).1 h
  obtain ⟨r0, rs, rfl⟩ : ∃ r0 rs, rows = r0 :: rs := by
    cases rows with
    | nil => simp at hr
    | cons r0 rs => exact ⟨_, _, rfl⟩
  have : r0 = r := by simpa using hr
  subst this
  have hne : blocks differs (r0 :: rs) ≠ [] := List.splitBy_ne_nil.2 (by simp)
  obtain ⟨b0, bs, hb⟩ := List.exists_cons_of_ne_nil hne
  have h1 : ∀ b' ∈ b0 :: bs, b' ≠ [] ∧ b'.IsChain fun a b => (!differs b.key a.key) = true := by
    intro b' hb'
    rw [← hb] at hb'
    exact ⟨List.ne_nil_of_mem_splitBy hb', List.isChain_of_mem_splitBy hb'⟩
  have h2 : (b0 :: bs).IsChain (fun a b => ∃ ha hb, (!differs (b.head hb).key (a.getLast ha).key) = false) := by
    rw [← hb]; exact List.isChain_getLast_head_splitBy (fun a b : Row K => !differs b.key a.key) _
  have hflat : (b0 :: bs).flatten = r0 :: rs := by rw [← hb]; exact List.flatten_splitBy _ _
  have hants : ∀ b ∈ b0 :: bs, b.map Row.ants = b0.map Row.ants := by
    intro b hb'
    refine hall _ ?_ _ ?_
    · rw [baselines, hb]; exact List.mem_map.2 ⟨b, hb', rfl⟩
    · rw [baselines, hb]; simp
  have hlen : ∀ b ∈ b0 :: bs, b.length = b0.length := by
    intro b hb'
    simpa using congrArg List.length (hants b hb')
  have hmap : (b0 :: bs).map (List.map Row.ants) = List.replicate (b0 :: bs).length (b0.map Row.ants) := by
    rw [List.eq_replicate_iff]
    refine ⟨by simp, fun x hx => ?_⟩
    obtain ⟨b, hb', rfl⟩ := List.mem_map.1 hx
    exact hants b hb'
  have hrows : (r0 :: rs).map Row.ants = (List.replicate (b0 :: bs).length (b0.map Row.ants)).flatten := by
    rw [← hmap, ← hflat, List.map_flatten]
  have htot : (r0 :: rs).length = (b0 :: bs).length * b0.length := by
    have := congrArg List.length hrows
    simpa using this
  have hpos : 0 < b0.length := List.length_pos_iff.2 (h1 b0 (by simp)).1
  refine ⟨b0.length, ⟨hpos, ⟨(b0 :: bs).length, by rw [htot, Nat.mul_comm]⟩, ?_, ?_⟩, ?_, ?_⟩
  · intro i hi h0
    obtain ⟨r', rs', hb0⟩ := List.exists_cons_of_ne_nil (h1 b0 (by simp)).1
    have hrr : r' = r0 := by rw [hb0] at hflat; simp at hflat; exact hflat.1
    subst hrr
    subst hb0
    have hrun : Run differs r'.key rs' := run_of_chain _ _ _ (h1 _ (by simp)).2
    have hruns := runs_of_chain differs bs r' rs' h1 h2
    have ha : ((r' :: rs).map Row.key)[i]? = some (r' :: rs)[i].key := by
      rw [List.getElem?_map, List.getElem?_eq_getElem hi]; rfl
    have hb' : ((r' :: rs).map Row.key)[i - 1]? = some (r' :: rs)[i - 1].key := by
      rw [List.getElem?_map, List.getElem?_eq_getElem (by omega)]; rfl
    have hkeys : (r' :: rs).map Row.key = r'.key :: (rs'.map Row.key ++ bs.flatten.map Row.key) := by
      rw [← hflat]; simp
    rw [hkeys] at ha hb'
    generalize (r' :: rs)[i].key = ka at ha ⊢
    generalize (r' :: rs)[i - 1].key = kb at hb' ⊢
    clear hi
    by_cases him : i < (r' :: rs').length
    · rw [Nat.mod_eq_of_lt him]
      simp only [List.length_cons] at him
      have h0' : ¬ i = 0 := by omega
      simp only [h0', decide_false]
      obtain ⟨j, rfl⟩ := Nat.exists_eq_succ_of_ne_zero h0'
      refine run_keys differs rs' r'.key hrun j _ _ ?_ ?_
      · rw [Nat.succ_eq_add_one, List.getElem?_cons_succ, List.getElem?_append_left (by simp; omega)] at ha
        exact ha
      · rw [Nat.succ_eq_add_one, Nat.add_sub_cancel, ← List.cons_append,
          List.getElem?_append_left (by simp; omega)] at hb'
        exact hb'
    · rw [Nat.mod_eq_sub_mod (by omega)]
      simp only [List.length_cons] at him
      refine runs_keys differs _ hpos bs _ hruns (fun b hb => hlen b (List.mem_cons_of_mem _ hb))
        (i - (r' :: rs').length) _ _ ?_ ?_
      · rw [← List.cons_append, List.getElem?_append_right (by simp; omega)] at ha
        rw [← ha]; congr 1; simp
      · by_cases hie : i = (r' :: rs').length
        · have e := lastKey_get r'.key rs'
          have hi1 : i - 1 = rs'.length := by simp only [List.length_cons] at hie; omega
          have hi2 : i - (r' :: rs').length = 0 := by omega
          rw [hi2]
          rw [hi1, ← List.cons_append, List.getElem?_append_left (by simp), e] at hb'
          rw [← hb']; simp
        · simp only [List.length_cons] at hie
          rw [← List.cons_append, List.getElem?_append_right (by simp; omega)] at hb'
          obtain ⟨j, hj⟩ : ∃ j, i - (r' :: rs').length = j + 1 :=
            ⟨i - (r' :: rs').length - 1, by simp only [List.length_cons]; omega⟩
          rw [hj, List.getElem?_cons_succ, ← hb']
          simp only [List.length_cons] at hj
          congr 1
          simp; omega
  · intro i hi
    have h3 := flatten_replicate_get (b0.map Row.ants) (b0 :: bs).length
    rw [← hrows, List.length_map, ← htot] at h3
    have hlt : i % b0.length < b0.length := Nat.mod_lt _ hpos
    have hle := Nat.mod_le i b0.length
    have e1 := h3 i hi
    have e2 := h3 (i % b0.length) (by omega)
    rw [Nat.mod_mod, ← e1, List.getElem?_map, List.getElem?_map, List.getElem?_eq_getElem hi,
      List.getElem?_eq_getElem (by omega)] at e2
    exact (Option.some.inj e2).symm
  · rw [htot, List.length_cons, Nat.add_mul]; omega
  · rw [hb]; exact hlen

/-- A key comparison that comes from equality of values, as `!=` on time, field and data description: symmetric and
transitive. It need not be reflexive (NaN). -/
structure IsEquality (differs : K → K → Bool) : Prop where
  symm : ∀ a b, differs a b = false → differs b a = false
  trans : ∀ a b c, differs a b = false → differs b c = false → differs a c = false

/-- Rows of the first block have the key of row 0. -/
theorem regular_same {differs : K → K → Bool} {rows : List (Row K)} {m : Nat} (h : Regular differs rows m)
    (he : IsEquality differs) (h0 : 0 < rows.length) : ∀ i (hi : i < rows.length), 0 < i → i < m →
    differs rows[i].key rows[0].key = false := by
  intro i
  induction i with
  | zero => intro _ h; omega
  | succ i ih =>
    intro hi _ him
    have hk := h.keys (i + 1) hi (by omega)
    rw [Nat.mod_eq_of_lt him] at hk
    simp only [Nat.add_sub_cancel, Nat.add_eq_zero_iff, one_ne_zero, and_false, decide_false] at hk
    by_cases hi0 : i = 0
    · subst hi0; exact hk
    · exact he.trans _ _ _ hk (ih (by omega) (by omega) (by omega))

/-- The key of row `m` differs from that of row 0. -/
theorem regular_differs {differs : K → K → Bool} {rows : List (Row K)} {m : Nat} (h : Regular differs rows m)
    (he : IsEquality differs) (hm : m < rows.length) : differs rows[m].key (rows[0]'(by omega)).key = true := by
  have hpos := h.pos
  have hk := h.keys m hm hpos
  rw [Nat.mod_self] at hk
  simp only [decide_true] at hk
  by_contra hc
  have hc : differs rows[m].key (rows[0]'(by omega)).key = false := by simpa using hc
  by_cases h1 : m = 1
  · subst h1
    exact absurd hk (by rw [hc]; simp)
  · have := regular_same h he (by omega) (m - 1) (by omega) (by omega) (by omega)
    rw [he.trans _ _ _ hc (he.symm _ _ this)] at hk
    simp at hk

/-- C53: when the check passes and the table has more than one block, the block size is the one that the storage
manager finds while rows are put in order. -/
theorem regular_blockSize {V : Type} {differs : K → K → Bool} {rows : List (Row K)} {m : Nat}
    (h : Regular differs rows m) (he : IsEquality differs) (hm : m < rows.length) (p : Col.Params V K)
    (hp : p.differs = differs) (hk : ∀ i (hi : i < rows.length), p.key i = rows[i].key) :
    Col.FirstDifference p m := by
  have hpos := h.pos
  refine ⟨hpos, ?_, ?_⟩
  · rw [hp, hk m hm, hk 0 (by omega)]
    exact regular_differs h he hm
  · intro j hj hjm
    rw [hp, hk j (by omega), hk 0 (by omega)]
    exact regular_same h he (by omega) j (by omega) hj hjm

/-- C53: the rows per block determined while rows are put in order are those of the check, under every schedule. -/
theorem checked_rowsPerBlock {V : Type} {differs : K → K → Bool} {rows : List (Row K)}
    (hc : check differs rows = .ok ()) (he : IsEquality differs) :
    ∃ m, Regular differs rows m ∧ ∀ (p : Col.Params V K), m < rows.length → p.differs = differs →
      (∀ i (hi : i < rows.length), p.key i = rows[i].key) → 0 < p.threads →
      ∀ {k : K} {todo : List (Col.Op V)} {nBlocks : Nat} {file : Nat → Option (Col.Rows V)}
        {s : Col.State V K p.threads}, Col.InOrder 0 todo →
        Col.Reachable p (Col.initial p k 0 file nBlocks todo) s → s.rowsPerBlock = 0 ∨ s.rowsPerBlock = m := by
  obtain ⟨m, hreg, -, -⟩ := check_regular differs rows hc
  refine ⟨m, hreg, ?_⟩
  intro p hm hp hk hn k todo nBlocks file s ho hr
  exact (Col.block_size hn ho hr).imp id fun hf =>
    Col.firstDifference_unique hf (regular_blockSize hreg he hm p hp hk)

/-- C53: after a passed check of a table with several blocks, putting all rows in order and closing never fails under any
schedule of the encoder threads, and afterwards the file has exactly the blocks of the check, each with its rows. -/
theorem checked_compresses {V : Type} {differs : K → K → Bool} {rows : List (Row K)}
    (hc : check differs rows = .ok ()) (he : IsEquality differs) (hsize : rows.length ≤ Col.noBlock) :
    ∃ m, Regular differs rows m ∧ ∀ (p : Col.Params V K), m < rows.length → p.differs = differs →
      (∀ i (hi : i < rows.length), p.key i = rows[i].key) → 0 < p.threads → 1 ≤ p.maxCache →
      ∀ {nBlocks : Nat} {v : Nat → V} {todo : List (Col.Op V)} {k : K} {s : Col.State V K p.threads},
        Col.Whole m v rows.length 0 todo →
        Col.Reachable p (Col.initial p k 0 (fun _ => none) nBlocks todo) s →
        s.client ≠ .failed ∧
        (s.client = .closed → ∀ b,
          (b < rows.length / m → ∃ blk, s.file b = some blk ∧ Col.Filled m v b m blk) ∧
          (rows.length / m ≤ b → s.file b = none)) := by
  obtain ⟨m, hreg, -, -⟩ := check_regular differs rows hc
  refine ⟨m, hreg, ?_⟩
  intro p hm hp hk hn hmc nBlocks v todo k s hw hr
  have hpos := hreg.pos
  have hf := regular_blockSize hreg he hm p hp hk
  obtain ⟨h1, -, -, h4⟩ := Col.whole_column (p := p) hn hmc hpos (by omega) hsize (fun r h0 hr => hf.2.2 r h0 hr)
    (fun _ => hf.2.1) (Or.inr ⟨rfl, hm⟩) hw hr
  refine ⟨h1, fun hcl b => ?_⟩
  obtain ⟨h5, h6⟩ := h4 hcl b
  obtain ⟨q, hq⟩ := hreg.whole
  rw [hq, Nat.mul_div_cancel_left _ hpos]
  constructor
  · intro hb
    have hb' : (b + 1) * m ≤ rows.length := by
      rw [hq, Nat.mul_comm]; exact Nat.mul_le_mul_left _ hb
    obtain ⟨blk, e, -, hfil⟩ := h5 (by rw [Nat.add_mul] at hb'; omega)
    refine ⟨blk, e, ?_⟩
    have : Col.rowsIn m rows.length b = m := by
      unfold Col.rowsIn
      rw [Nat.add_mul] at hb'
      omega
    rwa [this] at hfil
  · intro hb
    refine h6 ?_
    rw [hq, Nat.mul_comm]
    exact Nat.mul_le_mul_right _ hb

/-- C53: a table of one block passes the check, but putting its rows and closing always ends in an exception with nothing
written: the storage manager does not know the block size yet. -/
theorem checked_single_block {V : Type} {differs : K → K → Bool} {rows : List (Row K)}
    (hc : check differs rows = .ok ()) (he : IsEquality differs) (h1 : (blocks differs rows).length = 1)
    (p : Col.Params V K) (hp : p.differs = differs) (hk : ∀ i (hi : i < rows.length), p.key i = rows[i].key)
    (hn : 0 < p.threads) (hmc : 1 ≤ p.maxCache) {l : List (Nat × V)} (hl : l ≠ [])
    (hin : ∀ x ∈ l, x.1 < rows.length) {k : K} {nBlocks : Nat} {file : Nat → Option (Col.Rows V)}
    {s : Col.State V K p.threads} (h : Col.Reachable p (Col.initial p k 0 file nBlocks (Col.putAll l)) s) :
    s.writes = [] ∧ s.client ≠ .closed ∧ ∀ junk, Col.step p s (.client junk) = none → s.client = .failed := by
  obtain ⟨m, hreg, hle, hb⟩ := check_regular differs rows hc
  obtain ⟨⟨r0, hr0, hself⟩, -⟩ := (check_passes_iff differs rows).1 hc
  have hm : m = rows.length := by
    obtain ⟨b, hbs⟩ := List.length_eq_one_iff.1 h1
    have hflat : (blocks differs rows).flatten = rows := List.flatten_splitBy _ _
    rw [← hflat, hbs, List.flatten_singleton]
    exact (hb b (by rw [hbs]; simp)).symm
  have hpos := hreg.pos
  have hself : differs (rows[0]'(by omega)).key (rows[0]'(by omega)).key = false := by
    rw [List.head?_eq_getElem?, List.getElem?_eq_getElem (by omega)] at hr0
    have : rows[0]'(by omega) = r0 := by simpa using hr0
    rw [this]; exact hself
  have h0 : ∀ i (hi : i < rows.length), differs rows[i].key (rows[0]'(by omega)).key = false := by
    intro i hi
    by_cases hi0 : i = 0
    · subst hi0; exact hself
    · exact regular_same hreg he (by omega) i hi (by omega) (by omega)
  obtain ⟨g1, -, g3, g4⟩ := Col.single_block_fails hn hmc hl (fun x hx y hy => by
    rw [hp, hk _ (hin x hx), hk _ (hin y hy)]
    exact he.trans _ _ _ (h0 _ (hin x hx)) (he.symm _ _ (h0 _ (hin y hy)))) h
  exact ⟨g1, g3, fun junk hj => (g4 junk hj).1⟩

/-- C53: the antenna count taken from the first block (`MaxAntennaIndex() + 1`, threadeddyscocolumn.cc:201) is larger
than every antenna index of the table. -/
theorem regular_antennas {α : Type} {differs : K → K → Bool} {rows : List (Row K)} {m : Nat}
    (h : Regular differs rows m) (b : Block α) (hlen : b.len = m)
    (hb : ∀ i (hi : i < rows.length), i < m →
      ((b.get i).antenna1 : Int) = rows[i].ant1 ∧ ((b.get i).antenna2 : Int) = rows[i].ant2) :
    ∃ a, TimeBlock.maxAntennaIndex b = some a ∧
      ∀ i (hi : i < rows.length), rows[i].ant1 < (a + 1 : Nat) ∧ rows[i].ant2 < (a + 1 : Nat) := by
  obtain ⟨a, e, h1, -⟩ := TimeBlock.maxAntennaIndex_spec b
  refine ⟨a, e, fun i hi => ?_⟩
  have hlt : i % m < m := Nat.mod_lt _ h.pos
  have hle := Nat.mod_le i m
  obtain ⟨e1, e2⟩ := hb (i % m) (by omega) hlt
  have ha := h.ants i hi
  simp only [Row.ants, Prod.mk.injEq] at ha
  have := h1 (i % m) (by omega)
  rw [ha.1, ha.2, ← e1, ← e2]
  omega

theorem regularRows_check : check (fun a b => a != b) regularRows = .ok () := by rfl

/-- Three blocks of two rows. -/
theorem regularRows_regular : Regular (fun a b => a != b) regularRows 2 := by
  obtain ⟨m, h, -, hm⟩ := check_regular _ _ regularRows_check
  have : m = 2 := (hm [⟨5, 0, 1⟩, ⟨5, 0, 2⟩] (by rw [show blocks (fun a b : Nat => a != b) regularRows =
    [[⟨5, 0, 1⟩, ⟨5, 0, 2⟩], [⟨7, 0, 1⟩, ⟨7, 0, 2⟩], [⟨5, 0, 1⟩, ⟨5, 0, 2⟩]] from rfl]; simp)).symm
  exact this ▸ h

theorem ne_isEquality : IsEquality (fun a b : Nat => a != b) := by
  constructor <;> intros <;> simp_all

/-- A column of that table. -/
def regularParams : Col.Params Nat Nat where
  threads := 2
  maxCache := 2
  key := fun r => (regularRows.map Row.key).getD r 0
  differs := fun a b => a != b
  dec := fun _ _ => id

theorem regularParams_key : ∀ i (hi : i < regularRows.length), regularParams.key i = regularRows[i].key := by
  decide

example : Col.FirstDifference regularParams 2 :=
  regular_blockSize regularRows_regular ne_isEquality (by decide) regularParams rfl regularParams_key

/-- Writing all six rows and closing: at whatever point, the column has not failed. -/
example {s : Col.State Nat Nat regularParams.threads}
    (h : Col.Reachable regularParams (Col.initial regularParams 0 0 (fun _ => none) 0
      [.put 0 20, .put 1 21, .put 2 22, .put 3 23, .put 4 24, .put 5 25, .close]) s) : s.client ≠ .failed ∧
    (s.rowsPerBlock = 0 ∨ s.rowsPerBlock = 2) := by
  obtain ⟨m, h1, h2⟩ := checked_compresses (V := Nat) regularRows_check ne_isEquality (by decide)
  obtain ⟨m', h1', h2'⟩ := checked_rowsPerBlock (V := Nat) regularRows_check ne_isEquality
  have e : ∀ {m}, Regular (fun a b => a != b) regularRows m → m = 2 := fun {m} hm => by
    have a : 2 % m = 0 := of_decide_eq_true (hm.keys 2 (by decide) (by decide)).symm
    have b : 1 % m ≠ 0 := of_decide_eq_false (hm.keys 1 (by decide) (by decide)).symm
    have := Nat.le_of_dvd (by decide) (Nat.dvd_of_mod_eq_zero a)
    have := hm.pos
    rcases (by omega : m = 1 ∨ m = 2) with rfl | rfl <;> first | rfl | exact absurd rfl b
  obtain rfl := e h1
  obtain rfl := e h1'
  exact ⟨(h2 regularParams (by decide) rfl regularParams_key (by decide) (by decide) (v := fun r => 20 + r)
      (by simp [Col.Whole, regularRows]) h).1,
    h2' regularParams (by decide) rfl regularParams_key (by decide) (by simp [Col.InOrder]) h⟩

/-- A table of a single block: nothing is written. -/
example {s : Col.State Nat Nat 2}
    (h : Col.Reachable { regularParams with key := fun _ => 5 } (Col.initial { regularParams with key := fun _ => 5 } 0 0
      (fun _ => none) 0 (Col.putAll [(0, 20), (1, 21)])) s) : s.writes = [] ∧ s.client ≠ .closed :=
  have := checked_single_block (differs := fun a b => a != b) (rows := [⟨5, 0, 1⟩, ⟨5, 0, 2⟩]) rfl ne_isEquality rfl
    { regularParams with key := fun _ => 5 } rfl (by decide) (by decide) (by decide) (l := [(0, 20), (1, 21)]) (by simp)
    (by decide) h
  ⟨this.1, this.2.1⟩

example : ∃ a, TimeBlock.maxAntennaIndex (⟨2, fun r => ⟨0, r + 1, ⟨1, fun _ => 0⟩⟩⟩ : Block Nat) = some a ∧
    ∀ i (hi : i < regularRows.length), regularRows[i].ant1 < (a + 1 : Nat) ∧ regularRows[i].ant2 < (a + 1 : Nat) :=
  regular_antennas regularRows_regular _ rfl (by decide)

end Dysco.Tools
