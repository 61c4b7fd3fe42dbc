import Verif.StManProps
import Verif.LayoutProps

/-! # C36-C38: what is stored in the file -/

namespace Dysco.StMan
open BytePacker Layout

/-- Operations on the blocks of a manager whose layout is fixed, dyscostman.cc:178-211, 413-445. -/
inductive BlockOp where
  /-- column `i` writes block `b` -/
  | write (b i : Nat) (data : Mem 8)
  /-- column `i` reads block `b` into a buffer, if the block exists (threadeddyscocolumn.cc:80) -/
  | read (b i : Nat) (dest : Mem 8)
  /-- the header is written again -/
  | header

/-- One operation; a read or write of a column that does not exist does nothing. dyscostman.cc:178-211, 413-445. -/
def blockStep (m : Man) : BlockOp → Man
  | .write b i data =>
    match m.columns[i]? with
    | none => m
    | some c => (writeCompressedData b c data c.blockSize m).1
  | .read b i dest =>
    match m.columns[i]? with
    | none => m
    | some c => if b < m.nBlocks then (readCompressedData b c dest c.blockSize m).1 else m
  | .header => (writeHeader m).1

/-- A manager with a fixed layout, as left by `create`, `prepare` and `initializeRowsPerBlock`: the header is
in the file and no block is. -/
structure Fresh (m : Man) : Prop where
  ok : m.failed = false
  layout : Contiguous m.columns 0 m.blockSize
  positive : ∀ c ∈ m.columns, 0 < c.blockSize
  small : 52 + m.name.length + 24 * m.columns.length < 2 ^ 32
  headerSize : m.headerSize = headerSizeOf m.name m.columns
  header : HoldsAt m.file 0 m.headerBytes
  noBlocks : m.nBlocks = 0
  noData : m.file.len ≤ m.headerSize

/-- Contents of the regions. -/
abbrev Store := Nat → Nat → Option (Mem 8)

/-- One operation on the store. Not in the code. -/
def storeStep (cols : Nat) (S : Store) : BlockOp → Store
  | .write b i data => fun b' i' => if b' = b ∧ i' = i ∧ i < cols then some data else S b' i'
  | _ => S

/-- The file holds the store. -/
structure Holds (m : Man) (S : Store) : Prop where
  ok : m.failed = false
  layout : Contiguous m.columns 0 m.blockSize
  positive : ∀ c ∈ m.columns, 0 < c.blockSize
  small : 52 + m.name.length + 24 * m.columns.length < 2 ^ 32
  headerSize : m.headerSize = headerSizeOf m.name m.columns
  header : HoldsAt m.file 0 m.headerBytes
  /-- written regions -/
  written : ∀ b i d (hi : i < m.columns.length), S b i = some d → b < m.nBlocks ∧
    regionStart m b m.columns[i] + m.columns[i].blockSize ≤ m.file.len ∧
    ∀ k, k < m.columns[i].blockSize → m.file.get (regionStart m b m.columns[i] + k) = d.get k
  /-- other regions -/
  hole : ∀ b i (hi : i < m.columns.length), S b i = none → ∀ k, k < m.columns[i].blockSize →
    regionStart m b m.columns[i] + k < m.file.len → m.file.get (regionStart m b m.columns[i] + k) = 0
  inside : ∀ b i, m.columns.length ≤ i → S b i = none
  /-- the last block has something -/
  last : m.nBlocks ≠ 0 → ∃ i d, i < m.columns.length ∧ S (m.nBlocks - 1) i = some d
  /-- the file ends with a written region -/
  ends : m.file.len ≤ m.headerSize ∨ ∃ b i d, ∃ hi : i < m.columns.length, S b i = some d ∧
    m.file.len = regionStart m b m.columns[i] + m.columns[i].blockSize

theorem Fresh.holds {m : Man} (h : Fresh m) : Holds m (fun _ _ => none) where
  ok := h.ok
  layout := h.layout
  positive := h.positive
  small := h.small
  headerSize := h.headerSize
  header := h.header
  written := by intro b i d _ he; simp at he
  hole := by
    intro b i hi _ k hk hl
    have := h.noData
    unfold regionStart getFileOffset at hl
    omega
  inside := by intros; rfl
  last := fun hn => absurd h.noBlocks hn
  ends := Or.inl h.noData

theorem headerBytes_le {m : Man} (h1 : 52 + m.name.length + 24 * m.columns.length < 2 ^ 32)
    (h2 : m.headerSize = headerSizeOf m.name m.columns) : m.headerBytes.length ≤ m.headerSize := by
  rw [h2, headerSizeOf_eq _ _ h1, headerBytes_length]
  omega

theorem fwrite_get (f : Mem 8) (off n : Nat) (g : Nat → Byte) (j : Nat) :
    (fwrite f off n g).get j = if off ≤ j ∧ j < off + n then g (j - off)
      else if n = 0 ∨ j < f.len then f.get j else 0 := by
  unfold fwrite
  by_cases h : n = 0
  · rw [if_pos h, if_neg (by omega), if_pos (Or.inl h)]
  · rw [if_neg h]
    simp only
    by_cases h2 : off ≤ j ∧ j < off + n
    · rw [if_pos h2, if_pos h2]
    · rw [if_neg h2, if_neg h2]
      by_cases h3 : j < f.len
      · rw [if_pos h3, if_pos (Or.inr h3)]
      · rw [if_neg h3, if_neg (by omega)]

theorem fwrite_len (f : Mem 8) (off n : Nat) (g : Nat → Byte) (hn : n ≠ 0) :
    (fwrite f off n g).len = max f.len (off + n) := by
  unfold fwrite
  rw [if_neg hn]

theorem Holds.update {m : Man} {S S' : Store} (h : Holds m S) (n : Nat) (f : Mem 8)
    (header : HoldsAt f 0 m.headerBytes)
    (written : ∀ b i d (hi : i < m.columns.length), S' b i = some d → b < n ∧
      regionStart m b m.columns[i] + m.columns[i].blockSize ≤ f.len ∧
      ∀ k, k < m.columns[i].blockSize → f.get (regionStart m b m.columns[i] + k) = d.get k)
    (hole : ∀ b i (hi : i < m.columns.length), S' b i = none → ∀ k, k < m.columns[i].blockSize →
      regionStart m b m.columns[i] + k < f.len → f.get (regionStart m b m.columns[i] + k) = 0)
    (inside : ∀ b i, m.columns.length ≤ i → S' b i = none)
    (last : n ≠ 0 → ∃ i d, i < m.columns.length ∧ S' (n - 1) i = some d)
    (ends : f.len ≤ m.headerSize ∨ ∃ b i d, ∃ hi : i < m.columns.length, S' b i = some d ∧
      f.len = regionStart m b m.columns[i] + m.columns[i].blockSize) :
    Holds { m with nBlocks := n, file := f } S' :=
  ⟨h.ok, h.layout, h.positive, h.small, h.headerSize, header, written, hole, inside, last, ends⟩

/-- A write into region `(b, i)`. -/
theorem write_holds {m : Man} {S : Store} (h : Holds m S) (b i : Nat) (hi : i < m.columns.length)
    (data : Mem 8) :
    Holds (writeCompressedData b m.columns[i] data m.columns[i].blockSize m).1
      (storeStep m.columns.length S (.write b i data)) := by
  have hpos := h.positive _ (List.getElem_mem hi)
  have e : (writeCompressedData b m.columns[i] data m.columns[i].blockSize m).1 =
      { m with
        nBlocks := if m.nBlocks ≤ b then b + 1 else m.nBlocks
        file := fwrite m.file (regionStart m b m.columns[i]) m.columns[i].blockSize data.get } := by
    unfold writeCompressedData
    simp only [h.ok]
    rfl
  rw [e]
  have hst : ∀ b' c, m.headerSize ≤ regionStart m b' c := by
    intro b' c; unfold regionStart getFileOffset; omega
  have hlen : (fwrite m.file (regionStart m b m.columns[i]) m.columns[i].blockSize data.get).len =
      max m.file.len (regionStart m b m.columns[i] + m.columns[i].blockSize) :=
    fwrite_len _ _ _ _ (by omega)
  apply h.update
  · show HoldsAt (fwrite m.file (regionStart m b m.columns[i]) m.columns[i].blockSize data.get) 0 m.headerBytes
    refine ⟨?_, fun j hj => ?_⟩
    · rw [hlen]
      exact le_trans h.header.1 (Nat.le_max_left _ _)
    · have := hst b m.columns[i]
      have := headerBytes_le h.small h.headerSize
      have := h.header.1
      rw [fwrite_get, if_neg (by omega), if_pos (by omega)]
      exact h.header.2 j hj
  · intro b' i' d hi' hS
    show b' < (if m.nBlocks ≤ b then b + 1 else m.nBlocks) ∧
      regionStart m b' m.columns[i'] + m.columns[i'].blockSize ≤
        (fwrite m.file (regionStart m b m.columns[i]) m.columns[i].blockSize data.get).len ∧
      ∀ k, k < m.columns[i'].blockSize →
        (fwrite m.file (regionStart m b m.columns[i]) m.columns[i].blockSize data.get).get
          (regionStart m b' m.columns[i'] + k) = d.get k
    rw [hlen]
    simp only [storeStep] at hS
    by_cases heq : b' = b ∧ i' = i
    · obtain ⟨rfl, rfl⟩ := heq
      rw [if_pos ⟨rfl, rfl, hi⟩] at hS
      injection hS with hS
      subst hS
      refine ⟨by split <;> omega, Nat.le_max_right _ _, fun k hk => ?_⟩
      rw [fwrite_get, if_pos (by omega), Nat.add_sub_cancel_left]
    · rw [if_neg (by rintro ⟨a1, a2, _⟩; exact heq ⟨a1, a2⟩)] at hS
      obtain ⟨h1, h2, h3⟩ := h.written b' i' d hi' hS
      refine ⟨by split <;> omega, le_trans h2 (Nat.le_max_left _ _), fun k hk => ?_⟩
      have hdis := regions_disjoint h.layout hi hi' (b := b) (b' := b') (by
        by_cases hb : b = b'
        · right; rintro rfl; exact heq ⟨hb.symm, rfl⟩
        · exact Or.inl hb)
      rw [fwrite_get, if_neg (by omega), if_pos (by omega)]
      exact h3 k hk
  · intro b' i' hi' hS k hk hl
    simp only [storeStep] at hS
    have heq : ¬ (b' = b ∧ i' = i) := by
      rintro ⟨rfl, rfl⟩
      rw [if_pos ⟨rfl, rfl, hi⟩] at hS
      cases hS
    rw [if_neg (by rintro ⟨a1, a2, _⟩; exact heq ⟨a1, a2⟩)] at hS
    have hdis := regions_disjoint h.layout hi hi' (b := b) (b' := b') (by
      by_cases hb : b = b'
      · right; rintro rfl; exact heq ⟨hb.symm, rfl⟩
      · exact Or.inl hb)
    show (fwrite m.file (regionStart m b m.columns[i]) m.columns[i].blockSize data.get).get
      (regionStart m b' m.columns[i'] + k) = 0
    have hk' : k < m.columns[i'].blockSize := hk
    rw [fwrite_get, if_neg (by omega)]
    split
    · rename_i hc
      exact h.hole b' i' hi' hS k hk (hc.resolve_left (by omega))
    · rfl
  · intro b' i' hi'
    simp only [storeStep]
    have : m.columns.length ≤ i' := hi'
    rw [if_neg (by rintro ⟨_, rfl, _⟩; omega)]
    exact h.inside b' i' hi'
  · intro _
    show ∃ i' d, i' < m.columns.length ∧ storeStep m.columns.length S (.write b i data)
      ((if m.nBlocks ≤ b then b + 1 else m.nBlocks) - 1) i' = some d
    by_cases hb : m.nBlocks ≤ b
    · refine ⟨i, data, hi, ?_⟩
      simp only [storeStep]
      rw [if_pos hb, if_pos ⟨by omega, trivial, hi⟩]
    · rw [if_neg hb]
      obtain ⟨i', d, hi', hS⟩ := h.last (by omega)
      simp only [storeStep]
      by_cases hc : m.nBlocks - 1 = b ∧ i' = i
      · exact ⟨i', data, hi', by rw [if_pos ⟨hc.1, hc.2, hi⟩]⟩
      · exact ⟨i', d, hi', by rw [if_neg (by rintro ⟨a1, a2, _⟩; exact hc ⟨a1, a2⟩)]; exact hS⟩
  · show (fwrite m.file (regionStart m b m.columns[i]) m.columns[i].blockSize data.get).len ≤ m.headerSize ∨
      ∃ b' i' d, ∃ hi' : i' < m.columns.length,
        storeStep m.columns.length S (.write b i data) b' i' = some d ∧
        (fwrite m.file (regionStart m b m.columns[i]) m.columns[i].blockSize data.get).len =
          regionStart m b' m.columns[i'] + m.columns[i'].blockSize
    right
    rw [hlen]
    by_cases hm : m.file.len ≤ regionStart m b m.columns[i] + m.columns[i].blockSize
    · refine ⟨b, i, data, hi, by simp only [storeStep]; rw [if_pos ⟨trivial, trivial, hi⟩], Nat.max_eq_right hm⟩
    · rcases h.ends with he | ⟨b', i', d, hi', hS, he⟩
      · have := hst b m.columns[i]
        omega
      · rw [Nat.max_eq_left (by omega)]
        simp only [storeStep]
        by_cases hc : b' = b ∧ i' = i
        · exact ⟨b', i', data, hi', by rw [if_pos ⟨hc.1, hc.2, hi⟩], he⟩
        · exact ⟨b', i', d, hi', by rw [if_neg (by rintro ⟨a1, a2, _⟩; exact hc ⟨a1, a2⟩)]; exact hS, he⟩

/-- Any region of a block before the last lies in the file. -/
theorem Holds.before_last {m : Man} {S : Store} (h : Holds m S) {b i : Nat} (hi : i < m.columns.length)
    (hb : b + 1 < m.nBlocks) : regionStart m b m.columns[i] + m.columns[i].blockSize ≤ m.file.len := by
  obtain ⟨i', d, hi', hS⟩ := h.last (by omega)
  obtain ⟨_, h2, _⟩ := h.written _ _ _ hi' hS
  have h3 := contiguous_inside h.layout i hi
  have := Nat.mul_le_mul_left m.blockSize (show b + 1 ≤ m.nBlocks - 1 by omega)
  rw [Nat.mul_add, Nat.mul_one] at this
  unfold regionStart getFileOffset at h2 ⊢
  omega

/-- What a read of an existing block does. -/
theorem read_spec {m : Man} {S : Store} (h : Holds m S) {b i : Nat} (hi : i < m.columns.length)
    (hb : b < m.nBlocks) (dest : Mem 8) :
    ∃ dest', readCompressedData b m.columns[i] dest m.columns[i].blockSize m = (m, dest', true) ∧
      dest'.len = dest.len ∧
      (∀ d, S b i = some d → ∀ k, k < m.columns[i].blockSize → dest'.get k = d.get k) ∧
      (S b i = none → ∀ k, k < m.columns[i].blockSize → dest'.get k = 0 ∨
        (b + 1 = m.nBlocks ∧ m.file.len ≤ regionStart m b m.columns[i] + k ∧ dest'.get k = dest.get k)) ∧
      ∀ k, m.columns[i].blockSize ≤ k → dest'.get k = dest.get k := by
  refine ⟨⟨dest.len, fun k => if k < m.columns[i].blockSize ∧ regionStart m b m.columns[i] + k < m.file.len
    then m.file.get (regionStart m b m.columns[i] + k) else dest.get k⟩, ?_, rfl, ?_, ?_, ?_⟩
  · unfold readCompressedData
    simp only [h.ok, Bool.false_eq_true, if_false, false_or]
    by_cases hs : m.file.len < getFileOffset m b + m.columns[i].offset + m.columns[i].blockSize
    · rw [if_pos hs]
      have hlast : b + 1 = m.nBlocks := by
        by_contra hne
        have := h.before_last hi (show b + 1 < m.nBlocks by omega)
        unfold regionStart at this
        omega
      rw [if_neg (by omega)]
      have hm : ({ m with failed := false } : Man) = m := by
        have := h.ok
        cases m
        simp only at this
        subst this
        rfl
      rw [hm]
      rfl
    · rw [if_neg hs]
      rfl
  · intro d hS k hk
    obtain ⟨_, h2, h3⟩ := h.written b i d hi hS
    simp only
    rw [if_pos ⟨hk, by omega⟩]
    exact h3 k hk
  · intro hS k hk
    simp only
    by_cases hl : regionStart m b m.columns[i] + k < m.file.len
    · left
      rw [if_pos ⟨hk, hl⟩]
      exact h.hole b i hi hS k hk hl
    · right
      refine ⟨?_, by omega, by rw [if_neg (by omega)]⟩
      by_contra hne
      have := h.before_last hi (show b + 1 < m.nBlocks by omega)
      omega
  · intro k hk
    simp only
    rw [if_neg (by omega)]

theorem writeHeader_holds {m : Man} {S : Store} (h : Holds m S) : Holds (writeHeader m).1 S := by
  obtain ⟨h1, h2, h3⟩ := header_before_data m h.ok h.small 0
  have hle := headerBytes_le h.small h.headerSize
  have hlen : (fwriteList m.file 0 m.headerBytes).len = m.file.len := by
    unfold fwriteList fwrite
    rw [if_neg (by rw [headerBytes_length]; omega)]
    have := h.header.1
    simp only
    rw [Nat.max_eq_left (by omega)]
  have hst : ∀ b' c, m.headerSize ≤ regionStart m b' c := by
    intro b' c; unfold regionStart getFileOffset; omega
  have e := writeHeader_ok h.ok
  have hm : (writeHeader m).1 = { m with file := fwriteList m.file 0 m.headerBytes } := by
    rw [e, ← h.headerSize]
  rw [hm] at h2 h3 ⊢
  simp only at h2 h3
  generalize fwriteList m.file 0 m.headerBytes = f at h2 h3 hlen
  refine ⟨h.ok, h.layout, h.positive, h.small, h.headerSize, h2, ?_, ?_, h.inside, h.last, ?_⟩
  · intro b i d hi hS
    obtain ⟨a1, a2, a3⟩ := h.written b i d hi hS
    refine ⟨a1, by rw [hlen]; exact a2, fun k hk => ?_⟩
    have := hst b m.columns[i]
    have hk' : k < m.columns[i].blockSize := hk
    show f.get (regionStart m b m.columns[i] + k) = _
    rw [h3 _ (by omega) (by omega)]
    exact a3 k hk
  · intro b i hi hS k hk hl
    have := hst b m.columns[i]
    rw [hlen] at hl
    have hl' : regionStart m b m.columns[i] + k < m.file.len := hl
    show f.get (regionStart m b m.columns[i] + k) = _
    rw [h3 _ (by omega) hl']
    exact h.hole b i hi hS k hk hl
  · show f.len ≤ m.headerSize ∨ _
    rcases h.ends with he | ⟨b, i, d, hi, hS, he⟩
    · left; omega
    · right; exact ⟨b, i, d, hi, hS, by rw [hlen]; exact he⟩

theorem step_holds {m : Man} {S : Store} (h : Holds m S) (op : BlockOp) :
    Holds (blockStep m op) (storeStep m.columns.length S op) ∧
    (blockStep m op).columns = m.columns := by
  cases op with
  | write b i data =>
    simp only [blockStep]
    by_cases hi : i < m.columns.length
    · rw [List.getElem?_eq_getElem hi]
      refine ⟨write_holds h b i hi data, ?_⟩
      simp only [writeCompressedData]
      split <;> rfl
    · rw [List.getElem?_eq_none (by omega)]
      refine ⟨?_, rfl⟩
      have : storeStep m.columns.length S (.write b i data) = S := by
        funext b' i'
        simp only [storeStep]
        rw [if_neg (by rintro ⟨_, _, h3⟩; exact hi h3)]
      rw [this]
      exact h
  | read b i dest =>
    simp only [blockStep]
    by_cases hi : i < m.columns.length
    · rw [List.getElem?_eq_getElem hi]
      simp only
      split
      · rename_i hb
        obtain ⟨d, e, _⟩ := read_spec h hi hb dest
        rw [e]
        exact ⟨h, rfl⟩
      · exact ⟨h, rfl⟩
    · rw [List.getElem?_eq_none (by omega)]
      exact ⟨h, rfl⟩
  | header =>
    refine ⟨writeHeader_holds h, ?_⟩
    simp only [blockStep, writeHeader]
    split <;> rfl

theorem run_holds {m : Man} {S : Store} (h : Holds m S) (ops : List BlockOp) :
    Holds (ops.foldl blockStep m) (ops.foldl (storeStep m.columns.length) S) ∧
    (ops.foldl blockStep m).columns = m.columns := by
  induction ops generalizing m S with
  | nil => exact ⟨h, rfl⟩
  | cons op ops ih =>
    obtain ⟨h1, h2⟩ := step_holds h op
    obtain ⟨h3, h4⟩ := ih h1
    rw [h2] at h3 h4
    exact ⟨h3, h4⟩

/-! ## C36 -/

/-- No write of column `i` to block `b` among the operations. -/
def NotWritten (ops : List BlockOp) (b i : Nat) : Prop := ∀ d, BlockOp.write b i d ∉ ops

theorem store_unwritten (n : Nat) (ops : List BlockOp) (S : Store) (b i : Nat) (h : NotWritten ops b i) :
    ops.foldl (storeStep n) S b i = S b i := by
  induction ops generalizing S with
  | nil => rfl
  | cons op ops ih =>
    rw [List.foldl_cons, ih _ (fun d hd => h d (by simp [hd]))]
    cases op with
    | write b' i' d =>
      simp only [storeStep]
      rw [if_neg]
      rintro ⟨rfl, rfl, _⟩
      exact h d (by simp)
    | read => rfl
    | header => rfl

/-- **C36** For any fixed layout and any operations, if the last write of column `i` to block `b` was `d`,
then the block exists and reading it gives exactly the bytes of `d`, without exception. -/
theorem read_after_write {m : Man} (h : Fresh m) (before after : List BlockOp) (b i : Nat) (d : Mem 8)
    (hi : i < m.columns.length) (hn : NotWritten after b i) (dest : Mem 8) :
    let m' := (before ++ .write b i d :: after).foldl blockStep m
    b < m'.nBlocks ∧ ∃ dest', readCompressedData b m.columns[i] dest m.columns[i].blockSize m' =
        (m', dest', true) ∧ dest'.len = dest.len ∧
      ∀ k, k < m.columns[i].blockSize → dest'.get k = d.get k := by
  intro m'
  obtain ⟨hh, hc⟩ := run_holds h.holds (before ++ .write b i d :: after)
  have hS : (before ++ .write b i d :: after).foldl (storeStep m.columns.length) (fun _ _ => none) b i =
      some d := by
    rw [List.foldl_append, List.foldl_cons, store_unwritten _ _ _ _ _ hn]
    simp only [storeStep]
    rw [if_pos ⟨trivial, trivial, hi⟩]
  have hi' : i < m'.columns.length := by rw [hc]; exact hi
  have hcol : m'.columns[i] = m.columns[i] := by simp only [m', hc]
  obtain ⟨h1, _, _⟩ := hh.written b i d hi' hS
  obtain ⟨dest', e, l, g, _⟩ := read_spec hh hi' h1 dest
  rw [hcol] at e g
  exact ⟨h1, dest', e, l, g d hS⟩

/-! ## C37 -/

/-- **C37** Reading an existing block that a column never wrote raises no error. Every byte is zero, or it
is the old byte of the buffer, which happens only in the last block, after the end of the file. -/
theorem read_unwritten {m : Man} (h : Fresh m) (ops : List BlockOp) (b i : Nat)
    (hi : i < m.columns.length) (hn : NotWritten ops b i) (hb : b < (ops.foldl blockStep m).nBlocks)
    (dest : Mem 8) :
    let m' := ops.foldl blockStep m
    ∃ dest', readCompressedData b m.columns[i] dest m.columns[i].blockSize m' = (m', dest', true) ∧
      dest'.len = dest.len ∧
      ∀ k, k < m.columns[i].blockSize → dest'.get k = 0 ∨
        (b + 1 = m'.nBlocks ∧ m'.file.len ≤ regionStart m' b m.columns[i] + k ∧
          dest'.get k = dest.get k) := by
  intro m'
  obtain ⟨hh, hc⟩ := run_holds h.holds ops
  have hS : ops.foldl (storeStep m.columns.length) (fun _ _ => none) b i = none := by
    rw [store_unwritten _ _ _ _ _ hn]
  have hi' : i < m'.columns.length := by rw [hc]; exact hi
  have hcol : m'.columns[i] = m.columns[i] := by simp only [m', hc]
  obtain ⟨dest', e, l, _, g, _⟩ := read_spec hh hi' hb dest
  rw [hcol] at e g
  exact ⟨dest', e, l, g hS⟩

/-- **C37** In a block before the last one every byte is zero. -/
theorem read_hole {m : Man} (h : Fresh m) (ops : List BlockOp) (b i : Nat)
    (hi : i < m.columns.length) (hn : NotWritten ops b i) (hb : b + 1 < (ops.foldl blockStep m).nBlocks)
    (dest : Mem 8) :
    let m' := ops.foldl blockStep m
    ∃ dest', readCompressedData b m.columns[i] dest m.columns[i].blockSize m' = (m', dest', true) ∧
      dest'.len = dest.len ∧ ∀ k, k < m.columns[i].blockSize → dest'.get k = 0 := by
  obtain ⟨d, e, l, g⟩ := read_unwritten h ops b i hi hn (by omega) dest
  refine ⟨d, e, l, fun k hk => (g k hk).resolve_right ?_⟩
  rintro ⟨h1, _⟩
  omega

/-! ## C37: blocks of zeros -/

theorem ofBits_zero : Fl.ofBits 0 = .fin 0 := by
  unfold Fl.ofBits
  norm_num

theorem zero_meta {nMeta : Nat} {packed : Mem 8} (hz : ∀ k, k < 4 * nMeta → packed.get k = 0) (j : Nat)
    (hj : j < nMeta) : (metaView nMeta packed).get j = .fin 0 := by
  unfold metaView
  simp only
  rw [if_pos hj]
  have : le32 packed (4 * j) = 0 := by
    unfold le32
    rw [hz _ (by omega), hz _ (by omega), hz _ (by omega), hz _ (by omega)]
    rfl
  rw [this, ofBits_zero]

theorem zero_symbols {bits nMeta nSym : Nat} (hb : Supported bits) {packed : Mem 8}
    (hl : packed.len = blockSize nMeta nSym bits) (hz : ∀ k, k < packed.len → packed.get k = 0)
    (out : Buf Nat) (ho : out.len = nSym) :
    ∃ s, unpack bits (symMem out) (tail (4 * nMeta) packed) nSym = .ok s ∧
      s.len = nSym ∧ ∀ j, j < nSym → (s.get j).toNat = 0 := by
  obtain ⟨s, e, h1, h2, _⟩ := unpack_stream bits nSym (symMem out) (tail (4 * nMeta) packed) hb
    (by simp only [symMem]; omega) (by simp only [tail]; unfold blockSize at hl; omega)
  refine ⟨s, e, by rw [h1]; exact ho, fun j hj => ?_⟩
  have : s.get j = 0 := by
    apply BitVec.eq_of_getLsbD_eq
    intro t ht
    rw [h2 j hj t ht]
    split
    · rename_i htb
      unfold byteBit
      simp only [tail]
      have hlt : j * bits + t < nSym * bits := flat_lt hj htb
      have hk : (j * bits + t) / 8 < bufferSize nSym bits := by
        rw [bufferSize_eq]
        unfold bytesFor; split
        all_goals omega
      rw [hz _ (by unfold blockSize at hl; omega)]
      simp
    · simp
  rw [this]
  rfl

/-- **C37** A block of zeros decodes to zero visibilities, with every normalisation, table, bit count and
shape. -/
theorem zero_block_data (norm : Norm) {e : Stochastic.Encoder} {b l : Nat → ℚ} {L : ℚ}
    (hT : Table e b l L) {bits : Nat} (hb : Supported bits) (hq : e.quantCount = 2 ^ bits)
    {nR nPol nCh nAnt : Nat} {A : Nat → Nat × Nat} (hA : norm = .af → AF.AntennasBelow nR nAnt A)
    (packed : Mem 8)
    (hl : packed.len = blockSize (dataMetaCount norm nR nPol nCh nAnt) (TimeBlock.symbolCount nR nPol nCh) bits)
    (hz : ∀ k, k < packed.len → packed.get k = 0) (dflt : DataRow Cx) (out : Buf Nat)
    (ho : out.len = TimeBlock.symbolCount nR nPol nCh) (rows : Block Cx) :
    ∃ rows', readBlock (decData norm e nPol nCh nAnt A) bits (dataMetaCount norm nR nPol nCh nAnt)
        (TimeBlock.symbolCount nR nPol nCh) nR dflt packed out rows = .ok rows' ∧ rows'.len = nR ∧
      ∀ r, r < nR → (rows'.get r).vis.len = nPol * nCh ∧
        ∀ i, i < nPol * nCh → (rows'.get r).vis.get i = ⟨.fin 0, .fin 0⟩ := by
  have hr := dataReads (nPol := nPol) (nCh := nCh) norm hT hA
  rw [hq] at hr
  obtain ⟨rows', e1, l1, g1⟩ := readBlock_spec hr
    (metaB' := ⟨dataMetaCount norm nR nPol nCh nAnt, fun _ => .fin 0⟩)
    (sym' := ⟨TimeBlock.symbolCount nR nPol nCh, fun _ => 0⟩) rfl rfl
    (fun _ _ => Nat.two_pow_pos bits) hl
    (zero_meta (fun k hk => hz k (by unfold blockSize at hl; omega))) (zero_symbols hb hl hz) dflt out ho rows
  refine ⟨rows', e1, l1, fun r hr => ⟨(g1 r hr).1, fun i hi => ?_⟩⟩
  rw [(g1 r hr).2 i hi]
  have hlev : e.level 0 = .fin (l 0) := hT.levels.eq 0 (by have := hT.levels.two; omega)
  have hfac : factorOf norm nPol nCh nAnt A ⟨dataMetaCount norm nR nPol nCh nAnt, fun _ => .fin 0⟩ r i =
      .fin 0 := by
    cases norm <;> simp only [factorOf, Fl.mul, mul_zero, Fl.r64_zero]
  unfold valueOf
  rw [hfac]
  simp only [hlev, Fl.mul, mul_zero, Fl.r64_zero, Fl.cast, Fl.r32_zero]

/-- **C37** A block of zeros decodes to zero weights. -/
theorem zero_block_weights {bits : Nat} (hb : Supported bits) {nR nPol nCh : Nat} (hc : 0 < nCh)
    (packed : Mem 8)
    (hl : packed.len = blockSize Weight.metaDataFloatCount (Weight.symbolCount nR nCh) bits)
    (hz : ∀ k, k < packed.len → packed.get k = 0) (dflt : DataRow Fl) (out : Buf Nat)
    (ho : out.len = Weight.symbolCount nR nCh) (rows : Block Fl) :
    ∃ rows', readBlock (decWeight nPol nCh bits) bits Weight.metaDataFloatCount
        (Weight.symbolCount nR nCh) nR dflt packed out rows = .ok rows' ∧ rows'.len = nR ∧
      ∀ r, r < nR → (rows'.get r).vis.len = nCh * nPol ∧
        ∀ i, i < nCh * nPol → (rows'.get r).vis.get i = .fin 0 := by
  obtain ⟨rows', e1, l1, g1⟩ := readBlock_spec (weightReads (nR := nR) (nPol := nPol) (bits := bits) hc)
    (metaB' := ⟨Weight.metaDataFloatCount, fun _ => .fin 0⟩)
    (sym' := ⟨Weight.symbolCount nR nCh, fun _ => 0⟩) rfl rfl
    (fun _ _ => Nat.two_pow_pos bits) hl
    (zero_meta (fun k hk => hz k (by unfold blockSize at hl; omega))) (zero_symbols hb hl hz) dflt out ho rows
  refine ⟨rows', e1, l1, fun r hr => ⟨(g1 r hr).1, fun i hi => ?_⟩⟩
  rw [(g1 r hr).2 i hi]
  have h2 : 2 ^ 1 ≤ 2 ^ bits := Nat.pow_le_pow_right (by decide) (by unfold Supported at hb; omega)
  have hne : (((2 ^ bits - 1 : Nat) : ℚ)) ≠ 0 := by
    have : 2 ^ bits - 1 ≠ 0 := by omega
    exact_mod_cast this
  simp only [Weight.decodeSample, Fl.div]
  rw [if_neg hne, zero_div, Fl.r64_zero]
  simp only [Fl.mul, mul_zero, Fl.r64_zero, Fl.cast, Fl.r32_zero]

example : (⟨20, fun _ => 0⟩ : Mem 8).len = blockSize (dataMetaCount .row 2 1 3 3) (TimeBlock.symbolCount 2 1 3) 8 :=
  rfl

/-! ## C38 -/

theorem headerBytes_run {m : Man} (h : Fresh m) (ops : List BlockOp) :
    (ops.foldl blockStep m).rowsPerBlock = m.rowsPerBlock ∧
    (ops.foldl blockStep m).antennaCount = m.antennaCount ∧
    (ops.foldl blockStep m).blockSize = m.blockSize ∧
    (ops.foldl blockStep m).name = m.name ∧
    (ops.foldl blockStep m).dataBitCount = m.dataBitCount ∧
    (ops.foldl blockStep m).weightBitCount = m.weightBitCount ∧
    (ops.foldl blockStep m).distribution = m.distribution ∧
    (ops.foldl blockStep m).normalization = m.normalization ∧
    (ops.foldl blockStep m).studentTNu = m.studentTNu ∧
    (ops.foldl blockStep m).distributionTruncation = m.distributionTruncation ∧
    (ops.foldl blockStep m).headerSize = m.headerSize := by
  have key : ∀ (ops : List BlockOp) (m1 : Man) (S : Store), Holds m1 S →
      (ops.foldl blockStep m1).rowsPerBlock = m1.rowsPerBlock ∧
      (ops.foldl blockStep m1).antennaCount = m1.antennaCount ∧
      (ops.foldl blockStep m1).blockSize = m1.blockSize ∧
      (ops.foldl blockStep m1).name = m1.name ∧
      (ops.foldl blockStep m1).dataBitCount = m1.dataBitCount ∧
      (ops.foldl blockStep m1).weightBitCount = m1.weightBitCount ∧
      (ops.foldl blockStep m1).distribution = m1.distribution ∧
      (ops.foldl blockStep m1).normalization = m1.normalization ∧
      (ops.foldl blockStep m1).studentTNu = m1.studentTNu ∧
      (ops.foldl blockStep m1).distributionTruncation = m1.distributionTruncation ∧
      (ops.foldl blockStep m1).headerSize = m1.headerSize := by
    intro ops
    induction ops with
    | nil => intro m1 _ _; exact ⟨rfl, rfl, rfl, rfl, rfl, rfl, rfl, rfl, rfl, rfl, rfl⟩
    | cons op ops ih =>
      intro m1 S h1
      have hs : (blockStep m1 op).rowsPerBlock = m1.rowsPerBlock ∧
          (blockStep m1 op).antennaCount = m1.antennaCount ∧
          (blockStep m1 op).blockSize = m1.blockSize ∧
          (blockStep m1 op).name = m1.name ∧
          (blockStep m1 op).dataBitCount = m1.dataBitCount ∧
          (blockStep m1 op).weightBitCount = m1.weightBitCount ∧
          (blockStep m1 op).distribution = m1.distribution ∧
          (blockStep m1 op).normalization = m1.normalization ∧
          (blockStep m1 op).studentTNu = m1.studentTNu ∧
          (blockStep m1 op).distributionTruncation = m1.distributionTruncation ∧
          (blockStep m1 op).headerSize = m1.headerSize := by
        cases op with
        | write b i d =>
          simp only [blockStep]
          split
          · exact ⟨rfl, rfl, rfl, rfl, rfl, rfl, rfl, rfl, rfl, rfl, rfl⟩
          · simp only [writeCompressedData]
            split <;> exact ⟨rfl, rfl, rfl, rfl, rfl, rfl, rfl, rfl, rfl, rfl, rfl⟩
        | read b i d =>
          simp only [blockStep]
          split
          · exact ⟨rfl, rfl, rfl, rfl, rfl, rfl, rfl, rfl, rfl, rfl, rfl⟩
          · split
            · simp only [readCompressedData]
              split
              · split <;> exact ⟨rfl, rfl, rfl, rfl, rfl, rfl, rfl, rfl, rfl, rfl, rfl⟩
              · exact ⟨rfl, rfl, rfl, rfl, rfl, rfl, rfl, rfl, rfl, rfl, rfl⟩
            · exact ⟨rfl, rfl, rfl, rfl, rfl, rfl, rfl, rfl, rfl, rfl, rfl⟩
        | header =>
          have hh := h1.headerSize
          simp only [blockStep, writeHeader]
          split <;> exact ⟨rfl, rfl, rfl, rfl, rfl, rfl, rfl, rfl, rfl, rfl, hh.symm⟩
      obtain ⟨a1, a2, a3, a4, a5, a6, a7, a8, a9, a10, a11⟩ := ih _ _ (step_holds h1 op).1
      obtain ⟨b1, b2, b3, b4, b5, b6, b7, b8, b9, b10, b11⟩ := hs
      simp only [List.foldl_cons]
      exact ⟨a1.trans b1, a2.trans b2, a3.trans b3, a4.trans b4, a5.trans b5, a6.trans b6, a7.trans b7,
        a8.trans b8, a9.trans b9, a10.trans b10, a11.trans b11⟩
  exact key ops m _ h.holds

theorem Holds.inRange {m : Man} {S : Store} (h : Holds m S) (h1 : m.rowsPerBlock < 2 ^ 32)
    (h2 : m.antennaCount < 2 ^ 32) (h3 : m.blockSize < 2 ^ 32) (h4 : m.studentTNu < 2 ^ 64)
    (h5 : m.distributionTruncation < 2 ^ 64) : m.InRange := ⟨h1, h2, h3, h4, h5, h.small⟩

theorem Holds.blockSize_pos {m : Man} {S : Store} (h : Holds m S) (hc : m.columns ≠ []) : 0 < m.blockSize := by
  have hl : 0 < m.columns.length := List.length_pos_iff.mpr hc
  have := contiguous_inside h.layout 0 hl
  have := h.positive _ (List.getElem_mem hl)
  omega

/-- The number of blocks found after reopening. -/
theorem reopened_count {m : Man} {S : Store} (h : Holds m S) (hc : m.columns ≠ []) :
    (if m.file.len > m.headerSize then (m.file.len - m.headerSize) / m.blockSize else 0) =
      if (S (m.nBlocks - 1) (m.columns.length - 1)).isSome then m.nBlocks else m.nBlocks - 1 := by
  have hbs := h.blockSize_pos hc
  have hl : 0 < m.columns.length := List.length_pos_iff.mpr hc
  have hlast : m.columns[m.columns.length - 1].offset + m.columns[m.columns.length - 1].blockSize =
      m.blockSize := by
    have := contiguous_next h.layout (m.columns.length - 1) (by omega)
    rw [dif_neg (by omega)] at this
    exact this
  have hbound : ∀ b i (hi : i < m.columns.length) d, S b i = some d →
      regionStart m b m.columns[i] + m.columns[i].blockSize ≤ m.headerSize + m.blockSize * m.nBlocks := by
    intro b i hi d hS
    obtain ⟨h1, _, _⟩ := h.written b i d hi hS
    have h3 := contiguous_inside h.layout i hi
    have := Nat.mul_le_mul_left m.blockSize (show b + 1 ≤ m.nBlocks from h1)
    rw [Nat.mul_add, Nat.mul_one] at this
    unfold regionStart getFileOffset
    omega
  by_cases hn : m.nBlocks = 0
  · have hle : m.file.len ≤ m.headerSize := by
      rcases h.ends with he | ⟨b, i, d, hi, hS, _⟩
      · exact he
      · obtain ⟨h1, _⟩ := h.written b i d hi hS
        omega
    rw [if_neg (by omega), hn]
    simp
  · obtain ⟨i0, d0, hi0, hS0⟩ := h.last hn
    obtain ⟨_, w2, _⟩ := h.written _ _ _ hi0 hS0
    have hp0 := h.positive _ (List.getElem_mem hi0)
    have hmul : m.blockSize * (m.nBlocks - 1) + m.blockSize = m.blockSize * m.nBlocks := by
      rw [← Nat.mul_succ]
      congr 1
      omega
    have hlow : m.headerSize + m.blockSize * (m.nBlocks - 1) < m.file.len := by
      unfold regionStart getFileOffset at w2
      omega
    have hhigh : m.file.len ≤ m.headerSize + m.blockSize * m.nBlocks := by
      rcases h.ends with he | ⟨b, i, d, hi, hS, he⟩
      · omega
      · rw [he]; exact hbound b i hi d hS
    rw [if_pos (by omega)]
    cases hS : S (m.nBlocks - 1) (m.columns.length - 1) with
    | some d =>
      obtain ⟨_, w3, _⟩ := h.written _ _ _ (by omega) hS
      unfold regionStart getFileOffset at w3
      have : m.file.len - m.headerSize = m.blockSize * m.nBlocks := by omega
      rw [this, Nat.mul_div_cancel_left _ hbs]
      rfl
    | none =>
      have hlt : m.file.len < m.headerSize + m.blockSize * m.nBlocks := by
        rcases h.ends with he | ⟨b, i, d, hi, hS', he⟩
        · omega
        · obtain ⟨v1, _, _⟩ := h.written b i d hi hS'
          have hdis := regions_disjoint h.layout hi (show m.columns.length - 1 < m.columns.length by omega)
            (b := b) (b' := m.nBlocks - 1) (by
              by_contra hcon
              push Not at hcon
              rw [hcon.1, hcon.2, hS] at hS'
              cases hS')
          have hpl := h.positive _ (List.getElem_mem (show m.columns.length - 1 < m.columns.length by omega))
          have hb1 := Nat.mul_le_mul_left m.blockSize (show b ≤ m.nBlocks - 1 by omega)
          have hin := contiguous_inside h.layout i hi
          have hpi := h.positive _ (List.getElem_mem hi)
          have hs0 : getFileOffset m (m.nBlocks - 1) = m.headerSize + m.blockSize * (m.nBlocks - 1) := by
            unfold getFileOffset; omega
          rcases hdis with hd | hd
          · unfold regionStart at hd he
            omega
          · -- region (b, i) after the last region of the last block: impossible
            unfold regionStart getFileOffset at hd
            omega
      have : (m.file.len - m.headerSize) / m.blockSize = m.nBlocks - 1 := by
        rw [Nat.div_eq_iff hbs]
        rw [Nat.mul_comm]
        omega
      rw [this]
      rfl

/-- **C38** After any operations, reopening the file with the columns of the table gives all blocks if the
last column wrote the last block, and otherwise one block less: the last block is lost from view. -/
theorem reopen_count {m : Man} (h : Fresh m) (hc : m.columns ≠ []) (hr : m.InRange) (ops : List BlockOp)
    (nRow : Nat) (m0 : Man) (hl : m0.columns.length = m.columns.length) :
    let m' := ops.foldl blockStep m
    ∃ r, openFile nRow m0 m'.file = .ok r ∧
      r.nBlocks = (if r.file.len > r.headerSize then (r.file.len - r.headerSize) / r.blockSize else 0) ∧
      (∀ d, .write (m'.nBlocks - 1) (m.columns.length - 1) d ∈ ops → r.nBlocks = m'.nBlocks) ∧
      (NotWritten ops (m'.nBlocks - 1) (m.columns.length - 1) → r.nBlocks = m'.nBlocks - 1) := by
  intro m'
  obtain ⟨hh, hcol⟩ := run_holds h.holds ops
  obtain ⟨a1, a2, a3, a4, a5, a6, a7, a8, a9, a10, a11⟩ := headerBytes_run h ops
  have hr' : m'.InRange := hh.inRange (by rw [a1]; exact hr.rowsPerBlock) (by rw [a2]; exact hr.antennaCount)
    (by rw [a3]; exact hr.blockSize) (by rw [a9]; exact hr.studentTNu)
    (by rw [a10]; exact hr.distributionTruncation)
  have hpos := hh.blockSize_pos (by rw [hcol]; exact hc)
  have e := open_written hr' hh.header nRow (m0 := m0) (by rw [hl]; simp only [m', hcol]) (Or.inl (Nat.pos_iff_ne_zero.mp hpos))
  have hcount := reopened_count hh (by rw [hcol]; exact hc)
  have hnb : (opened nRow m0 m'.file m'.header (restored m'.columns m0.columns)).nBlocks =
      if m'.file.len > m'.headerSize then (m'.file.len - m'.headerSize) / m'.blockSize else 0 := by
    have : m'.header.headerSize = m'.headerSize := hh.headerSize.symm
    show (if m'.file.len > m'.header.headerSize then
      (m'.file.len - m'.header.headerSize) / m'.blockSize else 0) = _
    rw [this]
  have hlen : m'.columns.length = m.columns.length := by simp only [m', hcol]
  refine ⟨_, e, rfl, ?_, ?_⟩
  · intro d hd
    rw [hnb, hcount, hlen]
    have hsome : ∃ d', ops.foldl (storeStep m.columns.length) (fun _ _ => none) (m'.nBlocks - 1)
        (m.columns.length - 1) = some d' := by
      have hpos : m.columns.length - 1 < m.columns.length := by
        have := List.length_pos_iff.mpr hc
        omega
      have key : ∀ (ops : List BlockOp) (S : Store) (b i : Nat), i < m.columns.length →
          ((∃ d, .write b i d ∈ ops) ∨ ∃ d', S b i = some d') →
          ∃ d', ops.foldl (storeStep m.columns.length) S b i = some d' := by
        intro ops
        induction ops with
        | nil =>
          intro S b i _ hx
          rcases hx with ⟨d, hx⟩ | hx
          · simp at hx
          · exact hx
        | cons op ops ih =>
          intro S b i hi hx
          rw [List.foldl_cons]
          apply ih _ _ _ hi
          rcases hx with ⟨d, hx⟩ | ⟨d', hx⟩
          · rcases List.mem_cons.mp hx with hx | hx
            · right
              subst hx
              exact ⟨d, by simp only [storeStep]; rw [if_pos ⟨trivial, trivial, hi⟩]⟩
            · exact Or.inl ⟨d, hx⟩
          · right
            cases op with
            | write b' i' d2 =>
              simp only [storeStep]
              split
              · exact ⟨_, rfl⟩
              · exact ⟨d', hx⟩
            | read => exact ⟨d', hx⟩
            | header => exact ⟨d', hx⟩
      exact key ops _ _ _ hpos (Or.inl ⟨d, hd⟩)
    obtain ⟨d', hd'⟩ := hsome
    rw [hd']
    rfl
  · intro hn
    rw [hnb, hcount, hlen, store_unwritten _ _ _ _ _ hn]
    rfl

/-! ## The first layout is fresh -/

/-- After `create` and fixing the layout, the manager is fresh, so the theorems above apply. -/
theorem fresh_of_create (m : Man) (nRow rows ants : Nat) (hr : rows < 2 ^ 32) (ha : ants < 2 ^ 32)
    (hs : 52 + m.name.length + 24 * m.columns.length < 2 ^ 32) (h0 : m.rowsPerBlock = 0)
    (ht : totalSize rows ants m.columns < 2 ^ 32)
    (hp : ∀ c ∈ m.columns, 0 < c.calcSize rows ants) :
    Fresh (initializeRowsPerBlock rows ants true (create nRow m)).1 := by
  obtain ⟨h1, h2, h3, h4⟩ := layout_spec hr ha m.columns 0 (by omega)
  have e : (initializeRowsPerBlock rows ants true (create nRow m)).1 =
      (writeHeader { create nRow m with
        rowsPerBlock := rows % 2 ^ 32
        antennaCount := ants % 2 ^ 32
        columns := (layoutColumns rows ants m.columns 0).1
        blockSize := (layoutColumns rows ants m.columns 0).2 }).1 := by
    unfold initializeRowsPerBlock
    rw [if_neg (by simp [areOffsetsInitialized, create, h0])]
    rfl
  rw [e]
  have hs' : 52 + m.name.length + 24 * (layoutColumns rows ants m.columns 0).1.length < 2 ^ 32 := by
    rw [h3]; exact hs
  generalize hm : ({ create nRow m with
        rowsPerBlock := rows % 2 ^ 32
        antennaCount := ants % 2 ^ 32
        columns := (layoutColumns rows ants m.columns 0).1
        blockSize := (layoutColumns rows ants m.columns 0).2 } : Man) = m1
  have g1 : m1.failed = false := by rw [← hm]; rfl
  have g2 : m1.columns = (layoutColumns rows ants m.columns 0).1 := by rw [← hm]
  have g3 : m1.blockSize = (layoutColumns rows ants m.columns 0).2 := by rw [← hm]
  have g4 : m1.name = m.name := by rw [← hm]; rfl
  have g5 : m1.nBlocks = 0 := by rw [← hm]; rfl
  have g6 : m1.file.len = 0 := by rw [← hm]; rfl
  have hs1 : 52 + m1.name.length + 24 * m1.columns.length < 2 ^ 32 := by rw [g4, g2]; exact hs'
  have hw := writeHeader_ok g1
  have hh := holdsAt_fwriteList m1.file m1.headerBytes
  have hlen : (fwriteList m1.file 0 m1.headerBytes).len = m1.headerBytes.length := by
    unfold fwriteList fwrite
    rw [if_neg (by rw [headerBytes_length]; omega), g6]
    simp
  have hle : m1.headerBytes.length ≤ headerSizeOf m1.name m1.columns := by
    rw [headerSizeOf_eq _ _ hs1, headerBytes_length]
    omega
  have hb : ∀ x f, ({ m1 with headerSize := x, file := f } : Man).headerBytes = m1.headerBytes :=
    fun _ _ => rfl
  rw [hw]
  generalize fwriteList m1.file 0 m1.headerBytes = f at hh hlen
  refine ⟨g1, ?_, ?_, hs1, rfl, ?_, g5, ?_⟩
  · show Contiguous m1.columns 0 m1.blockSize
    rw [g2, g3]
    exact h1
  · show ∀ c ∈ m1.columns, 0 < c.blockSize
    rw [g2]
    intro c hc
    obtain ⟨i, hi, rfl⟩ := List.getElem_of_mem hc
    rw [h4 i (by rw [← h3]; exact hi) hi]
    exact hp _ (List.getElem_mem _)
  · show HoldsAt f 0 _
    rw [hb]
    exact hh
  · show f.len ≤ headerSizeOf m1.name m1.columns
    rw [hlen]
    exact hle

example : Fresh (initializeRowsPerBlock 4 2 true (create 0 { sampleMan with rowsPerBlock := 0 })).1 :=
  fresh_of_create _ 0 4 2 (by decide) (by decide) (by decide) rfl (by decide) (by decide)

end Dysco.StMan
