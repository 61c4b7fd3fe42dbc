import Verif.HeaderProps

/-!
# C125: reading the header of a file that is too short

A value that could not be read is indeterminate, and `readHeader` tests the stream only after it has read the whole
header, so that it uses an indeterminate number as the length of a string (serializable.h:116-122). Here the stream has its
fail bit, and a read that fails leaves what was in memory, `junk`; the model in `StManModel` gives up at the first
failure. `alloc n`: the allocation of `n` bytes succeeds.
-/

namespace Dysco.StMan
open BytePacker Layout

/-- The state of the stream: the position and `fail()`; the stream of dyscostman.cc:213-259. -/
structure Str where
  pos : Nat
  fail : Bool
deriving DecidableEq

/-- `stream.read(p, n)` where `p` holds `junk`: a stream that has failed reads nothing; at the end of the file the bytes up
to the end are read and the stream fails. The reads of serializable.h:72-132. -/
def readS (f : Mem 8) (s : Str) (n : Nat) (junk : Nat → Byte) : List Byte × Str :=
  if s.fail then ((List.range n).map junk, s)
  else if s.pos + n ≤ f.len then ((List.range n).map fun i => f.get (s.pos + i), ⟨s.pos + n, false⟩)
  else ((List.range n).map fun i => if s.pos + i < f.len then f.get (s.pos + i) else junk i, ⟨f.len, true⟩)

/-- `stream.seekg(pos, beg)`, which does nothing on a stream that has failed. dyscostman.cc:250-258. -/
def seekS (s : Str) (pos : Nat) : Str := if s.fail then s else ⟨pos, false⟩

/-- The first four numbers of `Header::Unserialize`, header.h:60-64, serializable.h:117: the last is the length. -/
def lengthS (f : Mem 8) (junk : Nat → Nat → Byte) : Nat × Nat × Nat × Nat × Str :=
  let a := readS f ⟨0, false⟩ 4 (junk 0)
  let b := readS f a.2 4 (junk 1)
  let c := readS f b.2 4 (junk 2)
  let d := readS f c.2 4 (junk 3)
  (ofLe a.1, ofLe b.1, ofLe c.1, ofLe d.1, d.2)

/-- `Header::Unserialize`, header.h:59-80, with `Unserialize32bString`, serializable.h:116-122; `none`: `new` raises an
exception. -/
def headerS (alloc : Nat → Bool) (f : Mem 8) (junk : Nat → Nat → Byte) : Option (Header × Str) :=
  let (headerSize, columnHeaderOffset, columnCount, size, s) := lengthS f junk
  if alloc size = false then none else
  let e := readS f s size (junk 4)
  let g := readS f e.2 4 (junk 5)
  let h := readS f g.2 4 (junk 6)
  let i := readS f h.2 4 (junk 7)
  let j := readS f i.2 2 (junk 8)
  let k := readS f j.2 2 (junk 9)
  let l := readS f k.2 1 (junk 10)
  let m := readS f l.2 1 (junk 11)
  let n := readS f m.2 1 (junk 12)
  let o := readS f n.2 1 (junk 13)
  let p := readS f o.2 8 (junk 14)
  let q := readS f p.2 8 (junk 15)
  some (⟨headerSize, columnHeaderOffset, columnCount, e.1, ofLe g.1, ofLe h.1, ofLe i.1, ofLe j.1, ofLe k.1, ofLe l.1,
    ofLe m.1, ofLe n.1, ofLe o.1, ofLe p.1, ofLe q.1⟩, q.2)

/-- The loop over the column headers, dyscostman.cc:251-258, threadeddyscocolumn.cc:369-375. -/
def columnsS (f : Mem 8) : (Nat → Nat → Byte) → Nat → Str → List Column → List Column × Str
  | _, _, s, [] => ([], s)
  | junk, off, s, c :: cs =>
    let a := readS f (seekS s off) 4 (junk 0)
    let b := readS f a.2 4 (junk 1)
    let d := readS f b.2 4 (junk 2)
    let r := columnsS f (fun k => junk (k + 3)) (off + ofLe a.1) d.2 cs
    ({ c with blockSize := ofLe b.1, antennaCount := ofLe d.1 } :: r.1, r.2)

/-- `open` with `readHeader`, dyscostman.cc:213-259, 284-305; `.error`: any exception. -/
def openS (alloc : Nat → Bool) (junk : Nat → Nat → Byte) (nRow : Nat) (m : Man) (f : Mem 8) : Res Man :=
  match headerS alloc f junk with
  | none => .error
  | some (h, s) =>
    if s.fail then .error else
    if h.versionMajor ≠ 1 ∨ h.versionMinor ≠ 0 then .error else
    if h.columnCount ≠ m.columns.length then .error else
    let r := columnsS f (fun k => junk (k + 16)) h.columnHeaderOffset s m.columns
    -- `seekg` to the end (297) does not clear the fail bit
    if r.2.fail then .error else
    if f.len > h.headerSize ∧ h.blockSize = 0 then .ub else .ok (opened nRow m f h r.1)

theorem readS_ok {f : Mem 8} {s : Str} {n : Nat} {junk : Nat → Byte} (hs : s.fail = false) (h : s.pos + n ≤ f.len) :
    readS f s n junk = ((List.range n).map fun i => f.get (s.pos + i), ⟨s.pos + n, false⟩) := by
  unfold readS
  rw [if_neg (by rw [hs]; simp), if_pos h]

/-- A read succeeds only if all before it did. -/
theorem readS_fail {f : Mem 8} {s : Str} {n : Nat} {junk : Nat → Byte} :
    (readS f s n junk).2.fail = false ↔ s.fail = false ∧ s.pos + n ≤ f.len := by
  unfold readS
  cases hs : s.fail with
  | true => simp [hs]
  | false => by_cases h : s.pos + n ≤ f.len <;> simp [h]

theorem seekS_fail (s : Str) (pos : Nat) : (seekS s pos).fail = s.fail := by
  unfold seekS
  split
  · rfl
  · rename_i h; simpa using h

theorem lengthS_ok {f : Mem 8} (h : 16 ≤ f.len) (junk : Nat → Nat → Byte) :
    lengthS f junk = (fieldAt f 4 0, fieldAt f 4 4, fieldAt f 4 8, fieldAt f 4 12, ⟨16, false⟩) := by
  unfold lengthS
  rw [readS_ok (s := ⟨0, false⟩) rfl (by simp; omega)]
  simp only
  rw [readS_ok (s := ⟨0 + 4, false⟩) rfl (by simp; omega)]
  simp only
  rw [readS_ok (s := ⟨0 + 4 + 4, false⟩) rfl (by simp; omega)]
  simp only
  rw [readS_ok (s := ⟨0 + 4 + 4 + 4, false⟩) rfl (by simp; omega)]
  simp [fieldAt]

/-- Where the stream is after reads that succeeded. -/
theorem readS_next {f : Mem 8} {s : Str} {n : Nat} {junk : Nat → Byte} (h : (readS f s n junk).2.fail = false) :
    s.fail = false ∧ s.pos + n ≤ f.len ∧ (readS f s n junk).2.pos = s.pos + n := by
  obtain ⟨h1, h2⟩ := readS_fail.mp h
  rw [readS_ok h1 h2]
  exact ⟨h1, h2, rfl⟩

theorem lengthS_fail {f : Mem 8} (h : ¬ 16 ≤ f.len) (junk : Nat → Nat → Byte) :
    (lengthS f junk).2.2.2.2.fail = true := by
  by_contra hx
  have hx : (lengthS f junk).2.2.2.2.fail = false := by simpa using hx
  obtain ⟨h1, a1, b1⟩ := readS_next hx
  obtain ⟨h2, a2, b2⟩ := readS_next h1
  obtain ⟨h3, a3, b3⟩ := readS_next h2
  obtain ⟨h4, a4, b4⟩ := readS_next h3
  simp only at b4
  omega

/-- The whole header: all reads succeed exactly if the file is long enough, and then the values are those of the file. -/
theorem headerS_spec (alloc : Nat → Bool) (f : Mem 8) (junk : Nat → Nat → Byte) :
    (∀ h s, headerS alloc f junk = some (h, s) → s.fail = false → Header.unserialize f = some h) ∧
    (∀ h, Header.unserialize f = some h → headerS alloc f junk =
      if alloc (fieldAt f 4 12) = true then some (h, ⟨52 + fieldAt f 4 12, false⟩) else none) := by
  have key : 16 ≤ f.len → 52 + fieldAt f 4 12 ≤ f.len → ∀ h, Header.unserialize f = some h → headerS alloc f junk =
      if alloc (fieldAt f 4 12) = true then some (h, ⟨52 + fieldAt f 4 12, false⟩) else none := by
    intro h16 h52 h hu
    rw [unserialize_spec, if_pos ⟨h16, h52⟩] at hu
    injection hu with hu
    subst hu
    unfold headerS
    rw [lengthS_ok h16]
    simp only
    generalize fieldAt f 4 12 = size at *
    cases ha : alloc size with
    | false => simp
    | true =>
      rw [if_neg (by simp), if_pos rfl]
      rw [readS_ok (n := size) rfl (by simp only; omega)]
      simp only
      rw [readS_ok (n := 4) (junk := junk 5) rfl (by simp only; omega)]
      simp only
      rw [readS_ok (n := 4) (junk := junk 6) rfl (by simp only; omega)]
      simp only
      rw [readS_ok (n := 4) (junk := junk 7) rfl (by simp only; omega)]
      simp only
      rw [readS_ok (n := 2) (junk := junk 8) rfl (by simp only; omega)]
      simp only
      rw [readS_ok (n := 2) (junk := junk 9) rfl (by simp only; omega)]
      simp only
      rw [readS_ok (n := 1) (junk := junk 10) rfl (by simp only; omega)]
      simp only
      rw [readS_ok (n := 1) (junk := junk 11) rfl (by simp only; omega)]
      simp only
      rw [readS_ok (n := 1) (junk := junk 12) rfl (by simp only; omega)]
      simp only
      rw [readS_ok (n := 1) (junk := junk 13) rfl (by simp only; omega)]
      simp only
      rw [readS_ok (n := 8) (junk := junk 14) rfl (by simp only; omega)]
      simp only
      rw [readS_ok (n := 8) (junk := junk 15) rfl (by simp only; omega)]
      have e : ∀ a k, a + size + k = a + k + size := fun a k => by omega
      simp only [fieldAt, e, Nat.reduceAdd]
  constructor
  · intro h s e hs
    have hlen : 16 ≤ f.len := by
      by_contra hx
      have h1 := lengthS_fail hx junk
      unfold headerS at e
      simp only at e
      split at e
      · cases e
      · injection e with e
        injection e with _ e
        subst e
        have h2 := (readS_next (readS_next (readS_next (readS_next (readS_next (readS_next (readS_next (readS_next
          (readS_next (readS_next (readS_next (readS_next hs).1).1).1).1).1).1).1).1).1).1).1).1
        rw [h1] at h2
        cases h2
    have h52 : 52 + fieldAt f 4 12 ≤ f.len := by
      unfold headerS at e
      rw [lengthS_ok hlen] at e
      simp only at e
      split at e
      · cases e
      · injection e with e
        injection e with _ e
        subst e
        obtain ⟨h1, a1, b1⟩ := readS_next hs
        obtain ⟨h2, a2, b2⟩ := readS_next h1
        obtain ⟨h3, a3, b3⟩ := readS_next h2
        obtain ⟨h4, a4, b4⟩ := readS_next h3
        obtain ⟨h5, a5, b5⟩ := readS_next h4
        obtain ⟨h6, a6, b6⟩ := readS_next h5
        obtain ⟨h7, a7, b7⟩ := readS_next h6
        obtain ⟨h8, a8, b8⟩ := readS_next h7
        obtain ⟨h9, a9, b9⟩ := readS_next h8
        obtain ⟨h10, a10, b10⟩ := readS_next h9
        obtain ⟨h11, a11, b11⟩ := readS_next h10
        obtain ⟨h12, a12, b12⟩ := readS_next h11
        simp only at b12
        omega
    have hu : ∃ h', Header.unserialize f = some h' := by
      rw [unserialize_spec, if_pos ⟨hlen, h52⟩]
      exact ⟨_, rfl⟩
    obtain ⟨h', hu⟩ := hu
    have := key hlen h52 h' hu
    rw [e] at this
    split at this
    · injection this with this
      injection this with this _
      rw [hu, this]
    · cases this
  · intro h hu
    have hlen : 16 ≤ f.len ∧ 52 + fieldAt f 4 12 ≤ f.len := by
      rw [unserialize_spec] at hu
      split at hu
      · assumption
      · cases hu
    exact key hlen.1 hlen.2 h hu

theorem columnsS_fail (f : Mem 8) (cs : List Column) (junk : Nat → Nat → Byte) (off : Nat) (s : Str) (hs : s.fail = true) :
    (columnsS f junk off s cs).2.fail = true := by
  induction cs generalizing junk off s with
  | nil => exact hs
  | cons c cs ih =>
    have hr : ∀ (t : Str) n j, t.fail = true → (readS f t n j).2.fail = true := by
      intro t n j ht
      cases h : (readS f t n j).2.fail with
      | true => rfl
      | false => have := (readS_next h).1; rw [ht] at this; cases this
    exact ih _ _ _ (hr _ _ _ (hr _ _ _ (hr _ _ _ (by rw [seekS_fail]; exact hs))))

/-- The column headers. -/
theorem columnsS_spec (f : Mem 8) (cs : List Column) (junk : Nat → Nat → Byte) (off : Nat) (s : Str)
    (hs : s.fail = false) :
    match readColumns f off cs with
    | some cs' => (columnsS f junk off s cs).1 = cs' ∧ (columnsS f junk off s cs).2.fail = false
    | none => (columnsS f junk off s cs).2.fail = true := by
  induction cs generalizing junk off s with
  | nil => exact ⟨rfl, hs⟩
  | cons c cs ih =>
    have hseek : seekS s off = ⟨off, false⟩ := by
      unfold seekS
      rw [if_neg (by rw [hs]; simp)]
    by_cases h : off + 12 ≤ f.len
    · simp only [columnsS]
      rw [hseek, readS_ok (s := ⟨off, false⟩) (junk := junk 0) rfl (by simp only; omega)]
      simp only
      rw [readS_ok (n := 4) (junk := junk 1) rfl (by simp only; omega)]
      simp only
      rw [readS_ok (n := 4) (junk := junk 2) rfl (by simp only; omega)]
      simp only
      have h1 : readInt 4 f off = some (fieldAt f 4 off) := by rw [readInt_eq, if_pos (by omega)]
      have h2 : readInt 4 f (off + 4) = some (fieldAt f 4 (off + 4)) := by rw [readInt_eq, if_pos (by omega)]
      have h3 : readInt 4 f (off + 8) = some (fieldAt f 4 (off + 8)) := by rw [readInt_eq, if_pos (by omega)]
      have ih' := ih (fun k => junk (k + 3)) (off + fieldAt f 4 off) ⟨off + 4 + 4 + 4, false⟩ rfl
      simp only [readColumns, h1, h2, h3, Option.bind_some]
      cases hr : readColumns f (off + fieldAt f 4 off) cs with
      | none => rw [hr] at ih'; exact ih'
      | some cs' =>
        rw [hr] at ih'
        refine ⟨?_, ih'.2⟩
        rw [← ih'.1]
        rfl
    · have hn : readColumns f off (c :: cs) = none := by
        simp only [readColumns]
        have h3 : readInt 4 f (off + 8) = none := by rw [readInt_eq, if_neg (by omega)]
        rw [h3]
        cases readInt 4 f off <;> [rfl; (cases readInt 4 f (off + 4) <;> rfl)]
      rw [hn]
      simp only [columnsS]
      apply columnsS_fail
      by_contra hx
      have hx : (readS f (readS f (readS f (seekS s off) 4 (junk 0)).2 4 (junk 1)).2 4 (junk 2)).2.fail = false := by
        simpa using hx
      rw [hseek] at hx
      obtain ⟨h1, a1, b1⟩ := readS_next hx
      obtain ⟨h2, a2, b2⟩ := readS_next h1
      obtain ⟨h3, a3, b3⟩ := readS_next h2
      simp only at b3
      omega

/-- **C125** Whatever values are in memory that could not be read: opening a file does what the model without such values
does, with the only difference that the name may be too long for the memory; then there is an exception. A file that is too
short for the length of the name is always refused. -/
theorem open_indeterminate (alloc : Nat → Bool) (junk : Nat → Nat → Byte) (nRow : Nat) (m : Man) (f : Mem 8) :
    openS alloc junk nRow m f =
      if 16 ≤ f.len ∧ alloc (fieldAt f 4 12) = true then openFile nRow m f else .error := by
  obtain ⟨h1, h2⟩ := headerS_spec alloc f junk
  unfold openS openFile
  cases hu : Header.unserialize f with
  | none =>
    simp only [ite_self]
    cases hh : headerS alloc f junk with
    | none => rfl
    | some x =>
      obtain ⟨h, s⟩ := x
      cases hs : s.fail with
      | true => simp only; rw [if_pos hs]
      | false => have := h1 h s hh hs; rw [hu] at this; cases this
  | some h =>
    have hlen : 16 ≤ f.len := by
      rw [unserialize_spec] at hu
      split at hu
      · rename_i h; exact h.1
      · cases hu
    rw [h2 h hu]
    cases ha : alloc (fieldAt f 4 12) with
    | false => simp
    | true =>
      simp only [if_true, hlen, and_self]
      rw [if_neg (by simp)]
      by_cases hv : h.versionMajor ≠ 1 ∨ h.versionMinor ≠ 0
      · rw [if_pos hv, if_pos hv]
      rw [if_neg hv, if_neg hv]
      by_cases hc : h.columnCount ≠ m.columns.length
      · rw [if_pos hc, if_pos hc]
      rw [if_neg hc, if_neg hc]
      have := columnsS_spec f m.columns (fun k => junk (k + 16)) h.columnHeaderOffset ⟨52 + fieldAt f 4 12, false⟩ rfl
      cases hr : readColumns f h.columnHeaderOffset m.columns with
      | none => rw [hr] at this; rw [if_pos this]
      | some cs' =>
        rw [hr] at this
        rw [if_neg (by rw [this.2]; simp), this.1]

/-- **C125** (negative) For a file of at most 12 bytes, the number of bytes that is allocated for the name is an indeterminate
value: any number of 32 bits. -/
theorem length_indeterminate {f : Mem 8} (hf : f.len ≤ 12) {n : Nat} (hn : n < 2 ^ 32) :
    ∃ junk, (lengthS f junk).2.2.2.1 = n := by
  refine ⟨fun _ i => (leBytes 4 n).getD i 0, ?_⟩
  have hread : ∀ s : Str, (s.fail = false → f.len ≤ s.pos) →
      (readS f s 4 fun i => (leBytes 4 n).getD i 0).1 = leBytes 4 n := by
    intro s hs
    have hl : (List.range 4).map (fun i => (leBytes 4 n).getD i 0) = leBytes 4 n := rfl
    unfold readS
    cases h : s.fail with
    | true => simpa using hl
    | false =>
      have := hs h
      rw [if_neg (by simp), if_neg (by omega)]
      simp only
      rw [← hl]
      refine List.map_congr_left fun i _ => ?_
      rw [if_neg (by omega), hl]
  show ofLe (readS f _ 4 _).1 = n
  rw [hread _ fun h1 => ?_, ofLe_leBytes, Nat.mod_eq_of_lt (by simpa using hn)]
  obtain ⟨h2, a2, b2⟩ := readS_next h1
  obtain ⟨h3, a3, b3⟩ := readS_next h2
  obtain ⟨h4, a4, b4⟩ := readS_next h3
  simp only at b2 b3 b4 a2 a3 a4 ⊢
  omega

/-- A file that is opened, and one of five bytes for which memory of 3 GB is requested. -/
example : (∃ m, openS (fun _ => true) (fun _ _ => 7) 0 sampleMan (writeHeader sampleMan).1.file = .ok m) ∧
    ∃ junk, (lengthS ⟨5, fun _ => 1⟩ junk).2.2.2.1 = 3000000000 := by
  refine ⟨?_, length_indeterminate (by decide) (by decide)⟩
  obtain ⟨r, e, _⟩ := reopen_restores sampleMan (by constructor <;> decide) rfl 0 sampleMan rfl (Or.inl (by decide))
  refine ⟨r, ?_⟩
  rw [open_indeterminate, if_pos ⟨by decide, rfl⟩, e]

end Dysco.StMan
