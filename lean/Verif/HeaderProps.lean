import Mathlib.Tactic.Linarith
import Mathlib.Tactic.Ring
import Verif.StManModel

/-! # C30-C33: the file header -/

namespace Dysco.StMan
open BytePacker Layout

/-- The file has the bytes `l` at position `pos`. -/
def HoldsAt (f : Mem 8) (pos : Nat) (l : List Byte) : Prop :=
  pos + l.length ≤ f.len ∧ ∀ i (h : i < l.length), f.get (pos + i) = l[i]

theorem HoldsAt.append {f : Mem 8} {pos : Nat} {a b : List Byte} :
    HoldsAt f pos (a ++ b) ↔ HoldsAt f pos a ∧ HoldsAt f (pos + a.length) b := by
  constructor
  · rintro ⟨h1, h2⟩
    rw [List.length_append] at h1
    refine ⟨⟨by omega, fun i hi => ?_⟩, ⟨by omega, fun i hi => ?_⟩⟩
    · rw [h2 i (by rw [List.length_append]; omega), List.getElem_append_left hi]
    · rw [Nat.add_assoc, h2 (a.length + i) (by rw [List.length_append]; omega),
        List.getElem_append_right (by omega)]
      simp
  · rintro ⟨⟨h1, h2⟩, ⟨h3, h4⟩⟩
    refine ⟨by rw [List.length_append]; omega, fun i hi => ?_⟩
    rw [List.length_append] at hi
    by_cases h : i < a.length
    · rw [h2 i h, List.getElem_append_left h]
    · have := h4 (i - a.length) (by omega)
      rw [Nat.add_assoc, Nat.add_sub_cancel' (by omega)] at this
      rw [this, List.getElem_append_right (by omega)]

theorem holdsAt_fwriteList (f : Mem 8) (l : List Byte) : HoldsAt (fwriteList f 0 l) 0 l := by
  unfold fwriteList fwrite
  split
  · rename_i h
    exact ⟨by omega, fun i hi => absurd hi (by omega)⟩
  · refine ⟨by simp, fun i hi => ?_⟩
    simp only [Nat.zero_add, Nat.zero_le, true_and, Nat.sub_zero]
    rw [if_pos hi, List.getD_eq_getElem?_getD, List.getElem?_eq_getElem hi, Option.getD_some]

theorem fread_holds {f : Mem 8} {pos : Nat} {l : List Byte} (h : HoldsAt f pos l) :
    fread f pos l.length = some l := by
  unfold fread
  rw [if_pos h.1]
  congr 1
  apply List.ext_getElem
  · simp
  · intro i h1 h2
    simp only [List.getElem_map, List.getElem_range]
    exact h.2 i h2

@[simp] theorem leBytes_length (n v : Nat) : (leBytes n v).length = n := by
  induction n generalizing v with
  | zero => rfl
  | succ n ih => simp [leBytes, ih]

theorem ofLe_leBytes (n v : Nat) : ofLe (leBytes n v) = v % 256 ^ n := by
  induction n generalizing v with
  | zero => simp [leBytes, ofLe, Nat.mod_one]
  | succ n ih =>
    simp only [leBytes, ofLe, ih, BitVec.toNat_ofNat]
    rw [show 256 ^ (n + 1) = 256 * 256 ^ n by ring, Nat.mod_mul]

theorem ofLe_lt (l : List Byte) : ofLe l < 256 ^ l.length := by
  induction l with
  | nil => simp [ofLe]
  | cons b l ih =>
    simp only [ofLe, List.length_cons, pow_succ]
    have := b.isLt
    omega

theorem readInt_holds {f : Mem 8} {pos n v : Nat} (h : HoldsAt f pos (leBytes n v)) :
    readInt n f pos = some (v % 256 ^ n) := by
  have := fread_holds h
  rw [leBytes_length] at this
  rw [readInt, this, Option.map_some, ofLe_leBytes]

/-! ## C30 -/

/-- Every field fits its stored width. -/
structure Header.Fits (h : Header) : Prop where
  headerSize : h.headerSize < 2 ^ 32
  columnHeaderOffset : h.columnHeaderOffset < 2 ^ 32
  columnCount : h.columnCount < 2 ^ 32
  name : h.name.length < 2 ^ 32
  rowsPerBlock : h.rowsPerBlock < 2 ^ 32
  antennaCount : h.antennaCount < 2 ^ 32
  blockSize : h.blockSize < 2 ^ 32
  versionMajor : h.versionMajor < 2 ^ 16
  versionMinor : h.versionMinor < 2 ^ 16
  dataBitCount : h.dataBitCount < 2 ^ 8
  weightBitCount : h.weightBitCount < 2 ^ 8
  distribution : h.distribution < 2 ^ 8
  normalization : h.normalization < 2 ^ 8
  studentTNu : h.studentTNu < 2 ^ 64
  distributionTruncation : h.distributionTruncation < 2 ^ 64

theorem serialize_length (h : Header) : h.serialize.length = 52 + h.name.length := by
  unfold Header.serialize
  simp only [List.length_append, leBytes_length]
  omega

theorem unserialize_holds {h : Header} (hf : h.Fits) {f : Mem 8} (hh : HoldsAt f 0 h.serialize) :
    Header.unserialize f = some h := by
  unfold Header.serialize at hh
  simp only [HoldsAt.append, List.length_append, leBytes_length, Nat.zero_add, Nat.reduceAdd] at hh
  obtain ⟨⟨⟨⟨⟨⟨⟨⟨⟨⟨⟨⟨⟨⟨h1, h2⟩, h3⟩, h4, h5⟩, h6⟩, h7⟩, h8⟩, h9⟩, h10⟩, h11⟩, h12⟩, h13⟩, h14⟩, h15⟩,
    h16⟩ := hh
  have e : ∀ {n v pos pos' : Nat}, HoldsAt f pos (leBytes n v) → pos = pos' → v < 2 ^ (8 * n) →
      readInt n f pos' = some v := by
    intro n v pos pos' h hp hv
    subst hp
    rw [readInt_holds h, Nat.mod_eq_of_lt (by rw [show (256 : Nat) = 2 ^ 8 from rfl, ← pow_mul]; exact hv)]
  unfold Header.unserialize
  rw [e h1 rfl hf.headerSize, Option.bind_some, e h2 rfl hf.columnHeaderOffset, Option.bind_some,
    e h3 rfl hf.columnCount, Option.bind_some, e h4 rfl hf.name, Option.bind_some, fread_holds h5,
    Option.bind_some, e h6 (by omega) hf.rowsPerBlock, Option.bind_some, e h7 (by omega) hf.antennaCount,
    Option.bind_some, e h8 (by omega) hf.blockSize, Option.bind_some, e h9 (by omega) hf.versionMajor,
    Option.bind_some, e h10 (by omega) hf.versionMinor, Option.bind_some, e h11 (by omega) hf.dataBitCount,
    Option.bind_some, e h12 (by omega) hf.weightBitCount, Option.bind_some,
    e h13 (by omega) hf.distribution, Option.bind_some, e h14 (by omega) hf.normalization,
    Option.bind_some, e h15 (by omega) hf.studentTNu, Option.bind_some,
    e h16 (by omega) hf.distributionTruncation, Option.bind_some]

/-- **C30** Whatever the file contained, writing a header whose fields fit at its start and reading it back
gives the same header. -/
theorem header_round_trip (h : Header) (hf : h.Fits) (f : Mem 8) :
    Header.unserialize (fwriteList f 0 h.serialize) = some h :=
  unserialize_holds hf (holdsAt_fwriteList f _)

/-- **C30** The column header offset is the number of bytes of the main header. -/
theorem columnHeaderOffset_spec (h : Header) (hn : 52 + h.name.length < 2 ^ 32) :
    columnHeaderOffset h.name = h.serialize.length := by
  rw [serialize_length]
  unfold columnHeaderOffset
  rw [Nat.mod_eq_of_lt (by omega)]
  omega

/-! ## C31 -/

theorem headerSizeOf_eq (name : List Byte) (columns : List Column)
    (h : 52 + name.length + 24 * columns.length < 2 ^ 32) :
    headerSizeOf name columns = 52 + name.length + 24 * columns.length := by
  have : ∀ (cs : List Column) s, s + 24 * cs.length < 2 ^ 32 →
      cs.foldl (fun s _ => (s + (16 + 8)) % 2 ^ 32) s = s + 24 * cs.length := by
    intro cs
    induction cs with
    | nil => intro s _; simp
    | cons c cs ih =>
      intro s hs
      rw [List.length_cons] at hs ⊢
      rw [List.foldl_cons, Nat.mod_eq_of_lt (by omega), ih _ (by omega)]
      omega
  unfold headerSizeOf columnHeaderOffset
  rw [Nat.mod_eq_of_lt (by omega), this _ _ (by omega)]
  omega

theorem headerBytes_length (m : Man) : m.headerBytes.length = 52 + m.name.length + 12 * m.columns.length := by
  unfold Man.headerBytes
  rw [List.length_append, serialize_length]
  have : ∀ cs : List Column, ((cs.map Column.header).flatten).length = 12 * cs.length := by
    intro cs
    induction cs with
    | nil => rfl
    | cons c cs ih =>
      rw [List.map_cons, List.flatten_cons, List.length_append, ih]
      simp only [Column.header, List.length_append, leBytes_length, List.length_cons]
      omega
  rw [this]
  rfl

/-- The manager's fields are in the range of their types, and the header is below 4 GB. -/
structure Man.InRange (m : Man) : Prop where
  rowsPerBlock : m.rowsPerBlock < 2 ^ 32
  antennaCount : m.antennaCount < 2 ^ 32
  blockSize : m.blockSize < 2 ^ 32
  studentTNu : m.studentTNu < 2 ^ 64
  distributionTruncation : m.distributionTruncation < 2 ^ 64
  small : 52 + m.name.length + 24 * m.columns.length < 2 ^ 32

theorem header_fits {m : Man} (h : m.InRange) : m.header.Fits := by
  have := h.small
  have := h.rowsPerBlock
  have := h.antennaCount
  have := h.blockSize
  have := h.studentTNu
  have := h.distributionTruncation
  constructor <;> simp only [Man.header] <;> try omega
  · rw [headerSizeOf_eq _ _ h.small]; exact h.small
  · unfold columnHeaderOffset; omega

theorem readColumns_holds {f : Mem 8} {off : Nat} {cs : List Column}
    (h : HoldsAt f off ((cs.map Column.header).flatten)) {cs' : List Column}
    (hl : cs'.length = cs.length) :
    readColumns f off cs' = some (List.zipWith (fun c c' : Column =>
      { c' with blockSize := c.blockSize % 2 ^ 32, antennaCount := c.antennaCount % 2 ^ 32 }) cs cs') := by
  induction cs generalizing off cs' with
  | nil =>
    rw [List.length_nil, List.length_eq_zero_iff] at hl
    subst hl
    rfl
  | cons c cs ih =>
    cases cs' with
    | nil => simp at hl
    | cons c' cs' =>
      rw [List.map_cons, List.flatten_cons, HoldsAt.append] at h
      obtain ⟨h1, h2⟩ := h
      simp only [Column.header, HoldsAt.append, List.length_append, leBytes_length] at h1 h2
      obtain ⟨h3, h4, h5⟩ := h1
      unfold readColumns
      rw [readInt_holds h3, readInt_holds h4, readInt_holds (h5 : HoldsAt f (off + 8) _)]
      simp only [Option.bind_some]
      rw [show (4 + 8) % 256 ^ 4 = 4 + (4 + 4) from rfl, ih h2 (by simpa using hl)]
      rfl

theorem writeHeader_ok {m : Man} (hok : m.failed = false) :
    writeHeader m = ({ m with
      headerSize := headerSizeOf m.name m.columns
      file := fwriteList m.file 0 m.headerBytes }, true) := by
  unfold writeHeader
  rw [hok]
  rfl

/-- The columns after `open`. -/
def restored (cs cs' : List Column) : List Column :=
  List.zipWith (fun c c' : Column =>
    { c' with blockSize := c.blockSize % 2 ^ 32, antennaCount := c.antennaCount % 2 ^ 32 }) cs cs'

/-- The manager after reopening a file with the header of `m`. -/
theorem open_written {m : Man} (h : m.InRange) {f : Mem 8} (hh : HoldsAt f 0 m.headerBytes)
    (nRow : Nat) {m0 : Man} (hc : m0.columns.length = m.columns.length)
    (hb : m.blockSize ≠ 0 ∨ f.len ≤ headerSizeOf m.name m.columns) :
    openFile nRow m0 f = .ok (opened nRow m0 f m.header (restored m.columns m0.columns)) := by
  unfold Man.headerBytes at hh
  rw [HoldsAt.append, serialize_length, Nat.zero_add] at hh
  have hoff : m.header.columnHeaderOffset = 52 + m.header.name.length := by
    have := h.small
    show columnHeaderOffset m.name = 52 + m.name.length
    unfold columnHeaderOffset
    rw [Nat.mod_eq_of_lt (by omega)]
    omega
  have e1 := unserialize_holds (header_fits h) hh.1
  have e2 := readColumns_holds hh.2 hc
  have hcc : m.header.columnCount = m0.columns.length := by
    have := h.small
    show m.columns.length % 2 ^ 32 = _
    rw [hc]
    omega
  unfold openFile
  rw [e1]
  simp only
  rw [if_neg (show ¬ (m.header.versionMajor ≠ 1 ∨ m.header.versionMinor ≠ 0) by simp [Man.header]),
    if_neg (by rw [hcc]; simp), hoff, e2]
  simp only
  rw [if_neg]
  · rfl
  · rintro ⟨h1, h2⟩
    rcases hb with hb | hb
    · exact hb h2
    · have : m.header.headerSize = headerSizeOf m.name m.columns := rfl
      omega

/-- **C31** For any file contents, number of columns and state: after `writeHeader`, opening the file with
the same number of columns succeeds and restores every setting, the header size and the header of each
column. Bit counts and enumeration values are restored modulo 256, column block sizes modulo `2^32`. -/
theorem reopen_restores (m : Man) (h : m.InRange) (hok : m.failed = false) (nRow : Nat) (m0 : Man)
    (hc : m0.columns.length = m.columns.length)
    (hb : m.blockSize ≠ 0 ∨ m.file.len ≤ (writeHeader m).1.headerSize) :
    ∃ r, openFile nRow m0 (writeHeader m).1.file = .ok r ∧ r.nRow = nRow ∧
      r.dataBitCount = m.dataBitCount % 256 ∧ r.weightBitCount = m.weightBitCount % 256 ∧
      r.distribution = m.distribution % 256 ∧ r.normalization = m.normalization % 256 ∧
      r.studentTNu = m.studentTNu ∧ r.distributionTruncation = m.distributionTruncation ∧
      r.name = m.name ∧ r.rowsPerBlock = m.rowsPerBlock ∧ r.antennaCount = m.antennaCount ∧
      r.blockSize = m.blockSize ∧ r.headerSize = (writeHeader m).1.headerSize ∧
      r.file = (writeHeader m).1.file ∧ r.failed = false ∧
      r.columns = List.zipWith (fun c c' : Column =>
        { c' with blockSize := c.blockSize % 2 ^ 32, antennaCount := c.antennaCount % 2 ^ 32 })
        m.columns m0.columns := by
  rw [writeHeader_ok hok] at hb ⊢
  simp only at hb ⊢
  have hlen : (fwriteList m.file 0 m.headerBytes).len = max m.file.len m.headerBytes.length := by
    unfold fwriteList fwrite
    rw [if_neg (by rw [headerBytes_length]; omega)]
    simp only [Nat.zero_add]
  refine ⟨opened nRow m0 (fwriteList m.file 0 m.headerBytes) m.header (restored m.columns m0.columns),
    open_written h (holdsAt_fwriteList m.file m.headerBytes) nRow hc (hb.imp_right fun hb => ?_),
    ?_⟩
  · rw [hlen, headerBytes_length]
    rw [headerSizeOf_eq _ _ h.small] at hb ⊢
    exact max_le hb (by omega)
  · simp [opened, Man.header, restored]

/-- **C31** With bit counts and enumeration values of at most 255 the settings are the same. -/
theorem reopen_same (m : Man) (h : m.InRange) (hok : m.failed = false) (nRow : Nat) (m0 : Man)
    (hc : m0.columns.length = m.columns.length)
    (hb : m.blockSize ≠ 0 ∨ m.file.len ≤ (writeHeader m).1.headerSize)
    (h1 : m.dataBitCount ≤ 255) (h2 : m.weightBitCount ≤ 255) (h3 : m.distribution ≤ 3)
    (h4 : m.normalization ≤ 2) :
    ∃ r, openFile nRow m0 (writeHeader m).1.file = .ok r ∧
      r.dataBitCount = m.dataBitCount ∧ r.weightBitCount = m.weightBitCount ∧
      r.distribution = m.distribution ∧ r.normalization = m.normalization ∧
      r.studentTNu = m.studentTNu ∧ r.distributionTruncation = m.distributionTruncation ∧
      r.name = m.name ∧ r.rowsPerBlock = m.rowsPerBlock ∧ r.antennaCount = m.antennaCount ∧
      r.blockSize = m.blockSize ∧ r.headerSize = (writeHeader m).1.headerSize := by
  obtain ⟨r, e, _, a1, a2, a3, a4, a5, a6, a7, a8, a9, a10, a11, _⟩ :=
    reopen_restores m h hok nRow m0 hc hb
  exact ⟨r, e, by omega, by omega, by omega, by omega, a5, a6, a7, a8, a9, a10, a11⟩

/-- A manager with one data and one weight column. -/
def sampleMan : Man :=
  ⟨0, 0, 3, 2, 100, 0, [65, 66], 8, 12, 3, 1, 0, 0x4004000000000000,
    [⟨true, 4, 5, 8, .rf, 70, 2, 0⟩, ⟨false, 4, 5, 12, .rf, 30, 2, 70⟩], ⟨0, fun _ => 0⟩, false⟩

example : sampleMan.InRange ∧ sampleMan.failed = false ∧ sampleMan.blockSize ≠ 0 ∧
    sampleMan.header.Fits := by
  have : sampleMan.InRange := by constructor <;> decide
  exact ⟨this, rfl, by decide, header_fits this⟩

/-- **C31** Larger bit counts are silently reduced: a manager with 264 bits is reopened with 8 bits. -/
theorem reopen_truncates : ∃ (m m0 : Man) (r : Man), m.InRange ∧ m.dataBitCount = 264 ∧
    openFile 0 m0 (writeHeader m).1.file = .ok r ∧ r.dataBitCount = 8 := by
  have hr : ({ sampleMan with dataBitCount := 264 } : Man).InRange := by constructor <;> decide
  obtain ⟨r, e, _, a1, _⟩ := reopen_restores { sampleMan with dataBitCount := 264 } hr rfl 0
    sampleMan rfl (Or.inl (by decide))
  exact ⟨_, sampleMan, r, hr, rfl, e, a1⟩

/-! ## C32 -/

/-- **C32** The bytes of the main header and all column headers end at or before the start of the first
block, for any name and number of columns (below 4 GB of header). -/
theorem header_before_data (m : Man) (hok : m.failed = false)
    (h : 52 + m.name.length + 24 * m.columns.length < 2 ^ 32) (b : Nat) :
    m.headerBytes.length ≤ getFileOffset (writeHeader m).1 b ∧
    HoldsAt (writeHeader m).1.file 0 m.headerBytes ∧
    (∀ j, m.headerBytes.length ≤ j → j < m.file.len → (writeHeader m).1.file.get j = m.file.get j) := by
  rw [writeHeader_ok hok]
  simp only
  refine ⟨?_, holdsAt_fwriteList m.file m.headerBytes, ?_⟩
  · unfold getFileOffset
    simp only
    rw [headerSizeOf_eq _ _ h, headerBytes_length]
    omega
  · intro j hj hl
    simp only [fwriteList, fwrite]
    split
    · rfl
    · simp only
      rw [if_neg (by omega), if_pos hl]

/-- **C32** Writing the header does not change any byte of a data block. -/
theorem header_keeps_data (m : Man) (hok : m.failed = false)
    (h : 52 + m.name.length + 24 * m.columns.length < 2 ^ 32) (b i : Nat)
    (hj : getFileOffset (writeHeader m).1 b + i < m.file.len) :
    (writeHeader m).1.file.get (getFileOffset (writeHeader m).1 b + i) =
      m.file.get (getFileOffset (writeHeader m).1 b + i) := by
  obtain ⟨h1, _, h3⟩ := header_before_data m hok h b
  exact h3 _ (by omega) hj

/-- **C32** Writing a block of any column does not change any byte before the first block, in particular
not the header, which can still be read. -/
theorem data_keeps_header (m : Man) (block : Nat) (c : Column) (data : Mem 8) (size : Nat) (hd : Header)
    (hf : hd.Fits) (hh : HoldsAt m.file 0 hd.serialize) (hs : hd.serialize.length ≤ m.headerSize) :
    (∀ j, j < m.headerSize → j < m.file.len →
      (writeCompressedData block c data size m).1.file.get j = m.file.get j) ∧
    Header.unserialize (writeCompressedData block c data size m).1.file = some hd := by
  have hkeep : ∀ j, j < m.headerSize → j < m.file.len →
      (writeCompressedData block c data size m).1.file.get j = m.file.get j := by
    intro j hj hl
    unfold writeCompressedData
    by_cases hfl : m.failed = true
    · simp [hfl]
    · simp only [hfl, Bool.false_eq_true, if_false, fwrite, getFileOffset]
      split
      · rfl
      · simp only
        rw [if_neg (by omega), if_pos hl]
  have hlen : m.file.len ≤ (writeCompressedData block c data size m).1.file.len := by
    unfold writeCompressedData
    by_cases hfl : m.failed = true
    · simp [hfl]
    · simp only [hfl, Bool.false_eq_true, if_false, fwrite]
      split
      · exact Nat.le_refl _
      · exact Nat.le_max_left _ _
  refine ⟨hkeep, unserialize_holds hf ⟨by have := hh.1; omega, ?_⟩⟩
  intro i hi
  have := hh.1
  rw [hkeep _ (by omega) (by omega)]
  exact hh.2 i hi

/-! ## C33 -/

/-- The number in `n` bytes of the file at position `pos`, whether or not they exist. -/
def fieldAt (f : Mem 8) (n pos : Nat) : Nat := ofLe ((List.range n).map fun i => f.get (pos + i))

theorem readInt_eq (n : Nat) (f : Mem 8) (pos : Nat) :
    readInt n f pos = if pos + n ≤ f.len then some (fieldAt f n pos) else none := by
  unfold readInt fread fieldAt
  split <;> rfl

/-- Everything `Unserialize` does, for every file. -/
theorem unserialize_spec (f : Mem 8) :
    Header.unserialize f = if 16 ≤ f.len ∧ 52 + fieldAt f 4 12 ≤ f.len then
      some ⟨fieldAt f 4 0, fieldAt f 4 4, fieldAt f 4 8,
        (List.range (fieldAt f 4 12)).map (fun i => f.get (16 + i)),
        fieldAt f 4 (16 + fieldAt f 4 12), fieldAt f 4 (20 + fieldAt f 4 12),
        fieldAt f 4 (24 + fieldAt f 4 12), fieldAt f 2 (28 + fieldAt f 4 12),
        fieldAt f 2 (30 + fieldAt f 4 12), fieldAt f 1 (32 + fieldAt f 4 12),
        fieldAt f 1 (33 + fieldAt f 4 12), fieldAt f 1 (34 + fieldAt f 4 12),
        fieldAt f 1 (35 + fieldAt f 4 12), fieldAt f 8 (36 + fieldAt f 4 12),
        fieldAt f 8 (44 + fieldAt f 4 12)⟩ else none := by
  have hp : ∀ n pos, pos + n ≤ f.len → readInt n f pos = some (fieldAt f n pos) := by
    intro n pos h
    rw [readInt_eq, if_pos h]
  have hn : ∀ n pos, ¬ pos + n ≤ f.len → readInt n f pos = none := by
    intro n pos h
    rw [readInt_eq, if_neg h]
  have bn : ∀ {α β : Type} (x : Option α), (x.bind fun _ => (none : Option β)) = none := by
    intro α β x; cases x <;> rfl
  unfold Header.unserialize
  by_cases h1 : 16 ≤ f.len
  · rw [hp 4 0 (by omega), Option.bind_some, hp 4 4 (by omega), Option.bind_some, hp 4 8 (by omega),
      Option.bind_some, hp 4 12 (by omega), Option.bind_some]
    generalize fieldAt f 4 12 = s
    by_cases h2 : 52 + s ≤ f.len
    · rw [fread, if_pos (show 16 + s ≤ f.len by omega), Option.bind_some, hp 4 (16 + s) (by omega),
        Option.bind_some, hp 4 (20 + s) (by omega), Option.bind_some, hp 4 (24 + s) (by omega),
        Option.bind_some, hp 2 (28 + s) (by omega), Option.bind_some, hp 2 (30 + s) (by omega),
        Option.bind_some, hp 1 (32 + s) (by omega), Option.bind_some, hp 1 (33 + s) (by omega),
        Option.bind_some, hp 1 (34 + s) (by omega), Option.bind_some, hp 1 (35 + s) (by omega),
        Option.bind_some, hp 8 (36 + s) (by omega), Option.bind_some, hp 8 (44 + s) (by omega),
        Option.bind_some, if_pos ⟨h1, h2⟩]
    · rw [if_neg (show ¬ (16 ≤ f.len ∧ 52 + s ≤ f.len) by omega), hn 8 (44 + s) (by omega)]
      simp only [Option.bind_none, bn]
  · rw [if_neg (show ¬ (16 ≤ f.len ∧ 52 + fieldAt f 4 12 ≤ f.len) by omega), hn 4 12 (by omega)]
    simp only [Option.bind_none, bn]

/-- All column headers, found by following their sizes, lie inside the file. -/
def ColumnsInside (f : Mem 8) : Nat → Nat → Prop
  | 0, _ => True
  | n + 1, off => off + 12 ≤ f.len ∧ ColumnsInside f n (off + fieldAt f 4 off)

theorem readColumns_spec (f : Mem 8) (cs : List Column) (off : Nat) :
    (ColumnsInside f cs.length off ∧ ∃ cs', readColumns f off cs = some cs') ∨
    (¬ ColumnsInside f cs.length off ∧ readColumns f off cs = none) := by
  induction cs generalizing off with
  | nil => exact Or.inl ⟨trivial, [], rfl⟩
  | cons c cs ih =>
    unfold readColumns
    simp only [readInt_eq, List.length_cons, ColumnsInside]
    by_cases h : off + 12 ≤ f.len
    · rw [if_pos (show off + 4 ≤ f.len by omega), if_pos (show off + 4 + 4 ≤ f.len by omega),
        if_pos (show off + 8 + 4 ≤ f.len by omega)]
      simp only [Option.bind_some]
      rcases ih (off + fieldAt f 4 off) with ⟨h1, cs', e⟩ | ⟨h1, e⟩
      · left
        rw [e]
        exact ⟨⟨h, h1⟩, _, rfl⟩
      · right
        rw [e]
        exact ⟨fun hh => h1 hh.2, rfl⟩
    · right
      refine ⟨fun hh => h hh.1, ?_⟩
      rw [if_neg (show ¬ off + 8 + 4 ≤ f.len by omega)]
      simp only [Option.bind_none]
      repeat' (first | rfl | (split; simp only [Option.bind_some]))

/-- The header in the file is complete, has version 1.0 and the number of columns of the table. -/
structure Readable (f : Mem 8) (columns : Nat) : Prop where
  lengthField : 16 ≤ f.len
  mainHeader : 52 + fieldAt f 4 12 ≤ f.len
  major : fieldAt f 2 (28 + fieldAt f 4 12) = 1
  minor : fieldAt f 2 (30 + fieldAt f 4 12) = 0
  count : fieldAt f 4 8 = columns
  columnHeaders : ColumnsInside f columns (fieldAt f 4 4)

/-- **C33** For every file: opening succeeds or is undefined if the header is readable, and fails with an
error otherwise. It is undefined exactly if there is data after the header but the block size is zero. -/
theorem open_spec (nRow : Nat) (m : Man) (f : Mem 8) :
    (Readable f m.columns.length ∧ ¬ (f.len > fieldAt f 4 0 ∧ fieldAt f 4 (24 + fieldAt f 4 12) = 0) ∧
      ∃ r, openFile nRow m f = .ok r) ∨
    (Readable f m.columns.length ∧ f.len > fieldAt f 4 0 ∧ fieldAt f 4 (24 + fieldAt f 4 12) = 0 ∧
      openFile nRow m f = .ub) ∨
    (¬ Readable f m.columns.length ∧ openFile nRow m f = .error) := by
  unfold openFile
  rw [unserialize_spec]
  by_cases h1 : 16 ≤ f.len ∧ 52 + fieldAt f 4 12 ≤ f.len
  · rw [if_pos h1]
    simp only
    by_cases h2 : fieldAt f 2 (28 + fieldAt f 4 12) ≠ 1 ∨ fieldAt f 2 (30 + fieldAt f 4 12) ≠ 0
    · rw [if_pos h2]
      right; right
      refine ⟨fun hr => ?_, rfl⟩
      rcases h2 with h2 | h2
      · exact h2 hr.major
      · exact h2 hr.minor
    · rw [if_neg h2]
      push Not at h2
      by_cases h3 : fieldAt f 4 8 ≠ m.columns.length
      · rw [if_pos h3]
        exact Or.inr (Or.inr ⟨fun hr => h3 hr.count, rfl⟩)
      · rw [if_neg h3]
        push Not at h3
        rcases readColumns_spec f m.columns (fieldAt f 4 4) with ⟨h4, cs', e⟩ | ⟨h4, e⟩
        · have hr : Readable f m.columns.length := ⟨h1.1, h1.2, h2.1, h2.2, h3, h4⟩
          rw [e]
          simp only
          by_cases h5 : f.len > fieldAt f 4 0 ∧ fieldAt f 4 (24 + fieldAt f 4 12) = 0
          · rw [if_pos h5]
            exact Or.inr (Or.inl ⟨hr, h5.1, h5.2, rfl⟩)
          · rw [if_neg h5]
            exact Or.inl ⟨hr, h5, _, rfl⟩
        · rw [e]
          exact Or.inr (Or.inr ⟨fun hr => h4 hr.columnHeaders, rfl⟩)
  · rw [if_neg h1]
    exact Or.inr (Or.inr ⟨fun hr => h1 ⟨hr.lengthField, hr.mainHeader⟩, rfl⟩)

/-- **C33** A file shorter than the smallest main header is refused, whatever it contains. -/
theorem open_short (nRow : Nat) (m : Man) (f : Mem 8) (h : f.len < 52) : openFile nRow m f = .error := by
  rcases open_spec nRow m f with ⟨hr, _⟩ | ⟨hr, _⟩ | ⟨_, e⟩
  · have := hr.mainHeader; omega
  · have := hr.mainHeader; omega
  · exact e

/-- **C33** A file that ends inside its main header is refused. -/
theorem open_truncated (nRow : Nat) (m : Man) (f : Mem 8) (h : f.len < 52 + fieldAt f 4 12) :
    openFile nRow m f = .error := by
  rcases open_spec nRow m f with ⟨hr, _⟩ | ⟨hr, _⟩ | ⟨_, e⟩
  · have := hr.mainHeader; omega
  · have := hr.mainHeader; omega
  · exact e

/-- **C33** Another version is refused. -/
theorem open_version (nRow : Nat) (m : Man) (f : Mem 8)
    (h : fieldAt f 2 (28 + fieldAt f 4 12) ≠ 1 ∨ fieldAt f 2 (30 + fieldAt f 4 12) ≠ 0) :
    openFile nRow m f = .error := by
  rcases open_spec nRow m f with ⟨hr, _⟩ | ⟨hr, _⟩ | ⟨_, e⟩
  · exact absurd h (by simp [hr.major, hr.minor])
  · exact absurd h (by simp [hr.major, hr.minor])
  · exact e

/-- **C33** Another number of columns is refused. -/
theorem open_columns (nRow : Nat) (m : Man) (f : Mem 8) (h : fieldAt f 4 8 ≠ m.columns.length) :
    openFile nRow m f = .error := by
  rcases open_spec nRow m f with ⟨hr, _⟩ | ⟨hr, _⟩ | ⟨_, e⟩
  · exact absurd hr.count h
  · exact absurd hr.count h
  · exact e

/-- **C33** With a valid header it succeeds. -/
theorem open_valid (nRow : Nat) (m : Man) (f : Mem 8) (h : Readable f m.columns.length)
    (hb : fieldAt f 4 (24 + fieldAt f 4 12) ≠ 0) : ∃ r, openFile nRow m f = .ok r := by
  rcases open_spec nRow m f with ⟨_, _, e⟩ | ⟨_, _, hb', _⟩ | ⟨hr, _⟩
  · exact e
  · exact absurd hb' hb
  · exact absurd h hr

/-- A file written by the code is such a file. -/
example : Readable (writeHeader sampleMan).1.file sampleMan.columns.length := by
  rcases open_spec 0 sampleMan (writeHeader sampleMan).1.file with ⟨hr, _⟩ | ⟨hr, _⟩ | ⟨_, e⟩
  · exact hr
  · exact hr
  · obtain ⟨r, e2, _⟩ := reopen_restores sampleMan (by constructor <;> decide) rfl 0 sampleMan rfl
      (Or.inl (by decide))
    rw [e2] at e
    cases e

end Dysco.StMan
