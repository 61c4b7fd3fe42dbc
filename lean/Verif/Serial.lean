import Verif.HeaderStream

/-!
# C131: the serialisation functions

All pairs of functions of serializable.h, on the stream of `HeaderStream`: records of any length and of any kinds of items,
also the kinds that no class of the project uses. Floating point numbers are their bits. A `long double` has 80 bits in 16
bytes (x86-64); the other six bytes are copied from memory and have any value, `pad`.
-/

namespace Dysco.StMan
open BytePacker Layout

/-- An item that is serialised. -/
inductive Item where
  /-- `SerializeToUInt8` to `SerializeToUInt64`, `SerializeToFloat`, `SerializeToDouble`: serializable.h:15-50, with `n` bytes -/
  | int (n v : Nat)
  /-- `SerializeToBool8`, serializable.h:39-42 -/
  | bool (b : Bool)
  /-- `SerializeToLDouble`, serializable.h:52-54 -/
  | ext (v pad : Nat)
  /-- `SerializeToLDoubleC`, serializable.h:56-59 -/
  | extC (re pad im pad' : Nat)
  /-- `SerializeToString`, `SerializeTo32bString`: serializable.h:61-70, with a length of `n` bytes -/
  | str (n : Nat) (s : List Byte)

/-- What `Unserialize…` reads. serializable.h:72-122. -/
inductive Kind where
  | int (n : Nat)
  | bool
  | ext
  | extC
  | str (n : Nat)

/-- What `Unserialize…` returns. serializable.h:72-122. -/
inductive Val where
  | int (v : Nat)
  | bool (b : Bool)
  | cx (re im : Nat)
  | str (s : List Byte)
deriving DecidableEq

/-- The bytes that are written, serializable.h:15-70. -/
def Item.bytes : Item → List Byte
  | .int n v => leBytes n v
  | .bool b => leBytes 1 b.toNat
  | .ext v pad => leBytes 10 v ++ leBytes 6 pad
  | .extC re pad im pad' => (leBytes 10 re ++ leBytes 6 pad) ++ (leBytes 10 im ++ leBytes 6 pad')
  | .str n s => leBytes n s.length ++ s

/-- The function that reads such an item, serializable.h:72-122. -/
def Item.kind : Item → Kind
  | .int n _ => .int n
  | .bool _ => .bool
  | .ext .. => .ext
  | .extC .. => .extC
  | .str n _ => .str n

/-- What should be read: a number modulo the width it is stored with. What C131 states. -/
def Item.value : Item → Val
  | .int n v => .int (v % 256 ^ n)
  | .bool b => .bool b
  | .ext v _ => .int (v % 2 ^ 80)
  | .extC re _ im _ => .cx (re % 2 ^ 80) (im % 2 ^ 80)
  | .str _ s => .str s

/-- `UnserializeUInt8` to `Unserialize32bString`, serializable.h:72-130; `none`: `new` raises an exception. -/
def Kind.read (alloc : Nat → Bool) (f : Mem 8) (s : Str) (junk : Nat → Nat → Byte) : Kind → Option (Val × Str)
  | .int n => let a := readS f s n (junk 0); some (.int (ofLe a.1), a.2)
  | .bool => let a := readS f s 1 (junk 0); some (.bool (ofLe a.1 != 0), a.2)
  | .ext => let a := readS f s 16 (junk 0); some (.int (ofLe (a.1.take 10)), a.2)
  | .extC => let a := readS f s 32 (junk 0); some (.cx (ofLe (a.1.take 10)) (ofLe ((a.1.drop 16).take 10)), a.2)
  | .str n =>
    let a := readS f s n (junk 0)
    if alloc (ofLe a.1) = false then none else
    let b := readS f a.2 (ofLe a.1) (junk 1)
    some (.str b.1, b.2)

/-- One item after the other. e.g. header.h:59-80. -/
def readAll (alloc : Nat → Bool) (f : Mem 8) : Str → (Nat → Nat → Byte) → List Kind → Option (List Val × Str)
  | s, _, [] => some ([], s)
  | s, junk, k :: ks =>
    (k.read alloc f s junk).bind fun r =>
    (readAll alloc f r.2 (fun i => junk (i + 2)) ks).map fun t => (r.1 :: t.1, t.2)

/-- All items are written, one after the other. e.g. header.h:41-57. -/
def record (l : List Item) : List Byte := (l.map Item.bytes).flatten

/-- The length of every string can be stored. Assumption of C131. -/
def Item.Fits : Item → Prop
  | .str n s => s.length < 256 ^ n
  | _ => True

/-- The memory for every string can be allocated. Assumption of C131. -/
def Item.Allocates (alloc : Nat → Bool) : Item → Prop
  | .str _ s => alloc s.length = true
  | _ => True

theorem readS_holds {f : Mem 8} {s : Str} {l : List Byte} {junk : Nat → Byte} (hs : s.fail = false) (h : HoldsAt f s.pos l) :
    readS f s l.length junk = (l, ⟨s.pos + l.length, false⟩) := by
  rw [readS_ok hs h.1]
  congr 1
  apply List.ext_getElem
  · simp
  · intro i h1 h2
    simp only [List.getElem_map, List.getElem_range]
    exact h.2 i h2

theorem read_item {alloc : Nat → Bool} {f : Mem 8} {x : Item} {pos : Nat} {junk : Nat → Nat → Byte} (hx : x.Fits)
    (ha : x.Allocates alloc) (h : HoldsAt f pos x.bytes) :
    x.kind.read alloc f ⟨pos, false⟩ junk = some (x.value, ⟨pos + x.bytes.length, false⟩) := by
  have h0 := readS_holds (s := ⟨pos, false⟩) (junk := junk 0) rfl h
  cases x with
  | int n v =>
    simp only [Item.bytes, leBytes_length] at h0
    simp only [Item.kind, Kind.read, Item.value, Item.bytes, h0, ofLe_leBytes, leBytes_length]
  | bool b =>
    simp only [Item.bytes, leBytes_length] at h0
    simp only [Item.kind, Kind.read, Item.value, Item.bytes, h0, ofLe_leBytes, leBytes_length]
    cases b <;> rfl
  | ext v pad =>
    simp only [Item.bytes, leBytes_length, List.length_append, Nat.reduceAdd] at h0
    simp only [Item.kind, Kind.read, Item.value, Item.bytes, h0, leBytes_length, List.length_append, Nat.reduceAdd]
    rw [List.take_left' (leBytes_length 10 v), ofLe_leBytes]
    rfl
  | extC re pad im pad' =>
    simp only [Item.bytes, leBytes_length, List.length_append, Nat.reduceAdd] at h0
    simp only [Item.kind, Kind.read, Item.value, Item.bytes, h0, leBytes_length, List.length_append, Nat.reduceAdd]
    rw [List.drop_left' (by simp), List.take_left' (leBytes_length 10 im), List.append_assoc,
      List.take_left' (leBytes_length 10 re), ofLe_leBytes, ofLe_leBytes]
    rfl
  | str n s =>
    obtain ⟨h1, h2⟩ := HoldsAt.append.mp h
    have e1 := readS_holds (s := ⟨pos, false⟩) (junk := junk 0) rfl h1
    rw [leBytes_length] at e1 h2
    have e2 := readS_holds (s := ⟨pos + n, false⟩) (junk := junk 1) rfl h2
    have hl : ofLe (leBytes n s.length) = s.length := by
      rw [ofLe_leBytes, Nat.mod_eq_of_lt hx]
    have ha : alloc s.length = true := ha
    simp only [Item.kind, Kind.read, Item.value, Item.bytes, e1, hl, ha, e2, List.length_append, leBytes_length,
      Bool.true_eq_false, if_false, Nat.add_assoc]

/-- **C131** Items of any kinds, written one after the other, are read back by the corresponding functions, wherever they are
in a stream and whatever was in memory; afterwards the stream stands behind them and has not failed. -/
theorem record_round_trip (alloc : Nat → Bool) (f : Mem 8) (l : List Item) (pos : Nat) (junk : Nat → Nat → Byte)
    (hl : ∀ x ∈ l, x.Fits ∧ x.Allocates alloc) (h : HoldsAt f pos (record l)) :
    readAll alloc f ⟨pos, false⟩ junk (l.map Item.kind) =
      some (l.map Item.value, ⟨pos + (record l).length, false⟩) := by
  induction l generalizing pos junk with
  | nil => simp [readAll, record]
  | cons x l ih =>
    have hr : record (x :: l) = x.bytes ++ record l := by simp [record]
    rw [hr] at h
    obtain ⟨h1, h2⟩ := HoldsAt.append.mp h
    have hx := hl x (by simp)
    rw [List.map_cons, readAll, read_item hx.1 hx.2 h1, Option.bind_some,
      ih _ _ (fun y hy => hl y (List.mem_cons_of_mem _ hy)) h2, hr, List.length_append, Option.map_some, List.map_cons,
      Nat.add_assoc]

/-! ## Failures -/

/-- `g` has the same bytes as `f`, and perhaps more. Not in the code. -/
def Extends (f g : Mem 8) : Prop := f.len ≤ g.len ∧ ∀ i < f.len, g.get i = f.get i

theorem readS_determined {f g : Mem 8} (hg : Extends f g) {s : Str} {n : Nat} {junk junk' : Nat → Byte}
    (h : (readS f s n junk).2.fail = false) : readS g s n junk' = readS f s n junk := by
  obtain ⟨h1, h2⟩ := readS_fail.mp h
  rw [readS_ok h1 h2, readS_ok h1 (h2.trans hg.1)]
  congr 1
  refine List.map_congr_left fun i hi => ?_
  rw [List.mem_range] at hi
  exact hg.2 _ (by omega)

theorem read_determined {alloc : Nat → Bool} {f g : Mem 8} (hg : Extends f g) {s : Str} {junk junk' : Nat → Nat → Byte}
    {k : Kind} {v : Val} {s' : Str} (h : k.read alloc f s junk = some (v, s')) (hs : s'.fail = false) :
    k.read alloc g s junk' = some (v, s') ∧ s.fail = false ∧ s.pos ≤ s'.pos ∧ s'.pos ≤ f.len := by
  have one : ∀ {n : Nat}, (readS f s n (junk 0)).2 = s' → readS g s n (junk' 0) = readS f s n (junk 0) ∧
      s.fail = false ∧ s.pos ≤ s'.pos ∧ s'.pos ≤ f.len := by
    intro n e
    have hf : (readS f s n (junk 0)).2.fail = false := by rw [e]; exact hs
    obtain ⟨h1, h2, h3⟩ := readS_next hf
    rw [e] at h3
    exact ⟨readS_determined hg hf, h1, by omega, by omega⟩
  cases k with
  | int n =>
    simp only [Kind.read, Option.some.injEq, Prod.mk.injEq] at h
    obtain ⟨e, r⟩ := one h.2
    refine ⟨?_, r⟩
    simp only [Kind.read, e, h.1, h.2]
  | bool =>
    simp only [Kind.read, Option.some.injEq, Prod.mk.injEq] at h
    obtain ⟨e, r⟩ := one h.2
    refine ⟨?_, r⟩
    simp only [Kind.read, e, h.1, h.2]
  | ext =>
    simp only [Kind.read, Option.some.injEq, Prod.mk.injEq] at h
    obtain ⟨e, r⟩ := one h.2
    refine ⟨?_, r⟩
    simp only [Kind.read, e, h.1, h.2]
  | extC =>
    simp only [Kind.read, Option.some.injEq, Prod.mk.injEq] at h
    obtain ⟨e, r⟩ := one h.2
    refine ⟨?_, r⟩
    simp only [Kind.read, e, h.1, h.2]
  | str n =>
    simp only [Kind.read] at h
    split at h
    · exact absurd h (by simp)
    · rename_i ha
      simp only [Option.some.injEq, Prod.mk.injEq] at h
      obtain ⟨hv, hs'⟩ := h
      have hf : (readS f (readS f s n (junk 0)).2 (ofLe (readS f s n (junk 0)).1) (junk 1)).2.fail = false := by
        rw [hs']; exact hs
      obtain ⟨h1, h2, h3⟩ := readS_next hf
      obtain ⟨h4, h5, h6⟩ := readS_next h1
      have e1 := readS_determined hg (junk' := junk' 0) h1
      have e2 := readS_determined hg (junk' := junk' 1) hf
      rw [hs'] at h3
      refine ⟨?_, h4, by omega, by omega⟩
      simp only [Kind.read, e1]
      rw [if_neg ha, e2, hv, hs']

/-- **C131** If the stream has not failed after the last item, then no read has failed: the values do not depend on what was in
memory before, nor on what follows in the stream. So one test at the end is enough. -/
theorem record_determined {alloc : Nat → Bool} {f g : Mem 8} (hg : Extends f g) {s s' : Str} {junk junk' : Nat → Nat → Byte}
    {ks : List Kind} {vs : List Val} (h : readAll alloc f s junk ks = some (vs, s')) (hs : s'.fail = false) :
    readAll alloc g s junk' ks = some (vs, s') ∧ s.fail = false ∧ s.pos ≤ s'.pos ∧ (ks ≠ [] → s'.pos ≤ f.len) := by
  induction ks generalizing s junk junk' vs with
  | nil =>
    simp only [readAll, Option.some.injEq, Prod.mk.injEq] at h
    obtain ⟨rfl, rfl⟩ := h
    exact ⟨rfl, hs, le_rfl, fun h => absurd rfl h⟩
  | cons k ks ih =>
    rw [readAll] at h
    cases hk : k.read alloc f s junk with
    | none => rw [hk] at h; exact absurd h (by simp)
    | some r =>
      rw [hk, Option.bind_some] at h
      cases hr : readAll alloc f r.2 (fun i => junk (i + 2)) ks with
      | none => rw [hr] at h; exact absurd h (by simp)
      | some t =>
        rw [hr, Option.map_some, Option.some.injEq, Prod.mk.injEq] at h
        obtain ⟨rfl, rfl⟩ := h
        obtain ⟨e, h1, h2, h3⟩ := ih (junk' := fun i => junk' (i + 2)) hr
        obtain ⟨e', h4, h5, h6⟩ := read_determined hg (junk' := junk') hk h1
        refine ⟨?_, h4, by omega, fun _ => ?_⟩
        · rw [readAll, e', Option.bind_some, e, Option.map_some]
        · by_cases hn : ks = []
          · subst hn
            simp only [readAll, Option.some.injEq] at hr
            rw [← hr]
            exact h6
          · exact h3 hn

/-- **C131** A record that was cut off is noticed: after reading all its items from a stream that ends before the end of the
record, the stream has failed (or an allocation has), whatever was in memory. -/
theorem record_cut {alloc alloc' : Nat → Bool} {f g : Mem 8} (hg : Extends f g) {l : List Item} {pos : Nat} {junk : Nat → Nat → Byte}
    (hl : ∀ x ∈ l, x.Fits ∧ x.Allocates alloc) (ha : ∀ n, alloc' n = true → alloc n = true) (h : HoldsAt g pos (record l))
    (hne : record l ≠ []) (hcut : f.len < pos + (record l).length) {vs : List Val} {s : Str}
    (hr : readAll alloc' f ⟨pos, false⟩ junk (l.map Item.kind) = some (vs, s)) : s.fail = true := by
  by_contra hs
  have hs : s.fail = false := by simpa using hs
  have mono : ∀ (ks : List Kind) (s : Str) (junk : Nat → Nat → Byte) (r : List Val × Str),
      readAll alloc' f s junk ks = some r → readAll alloc f s junk ks = some r := by
    intro ks
    induction ks with
    | nil => intro s junk r h; exact h
    | cons k ks ih =>
      intro s junk r h
      rw [readAll] at h
      cases hk : k.read alloc' f s junk with
      | none => rw [hk] at h; exact absurd h (by simp)
      | some t =>
        rw [hk, Option.bind_some] at h
        have hk' : k.read alloc f s junk = some t := by
          cases k with
          | str n =>
            simp only [Kind.read] at hk ⊢
            split at hk
            · exact absurd hk (by simp)
            · rename_i hx
              rw [if_neg (by rw [ha _ (by simpa using hx)]; simp)]
              exact hk
          | int | bool | ext | extC => exact hk
        rw [readAll, hk', Option.bind_some]
        cases hq : readAll alloc' f t.2 (fun i => junk (i + 2)) ks with
        | none => rw [hq] at h; exact absurd h (by simp)
        | some q => rw [ih _ _ _ hq]; rw [hq] at h; exact h
  obtain ⟨e, -, -, h3⟩ := record_determined hg (junk' := junk) (mono _ _ _ _ hr) hs
  rw [record_round_trip alloc g l pos junk hl h, Option.some.injEq, Prod.mk.injEq] at e
  have hne' : l.map Item.kind ≠ [] := by
    intro hx
    rw [List.map_eq_nil_iff] at hx
    subst hx
    exact hne rfl
  have := h3 hne'
  rw [← e.2] at this
  simp only at this
  omega

/-! ## Long strings -/

/-- **C131** A string whose length does not fit in the `n` bytes of the length comes back cut to the length modulo `256^n`, and
the stream stands inside the string. -/
theorem string_wraps (f : Mem 8) (n : Nat) (s : List Byte) (pos : Nat) (junk : Nat → Nat → Byte)
    (h : HoldsAt f pos (Item.str n s).bytes) :
    (Item.str n s).kind.read (fun _ => true) f ⟨pos, false⟩ junk =
      some (.str (s.take (s.length % 256 ^ n)), ⟨pos + n + s.length % 256 ^ n, false⟩) := by
  obtain ⟨h1, h2⟩ := HoldsAt.append.mp h
  have e1 := readS_holds (s := ⟨pos, false⟩) (junk := junk 0) rfl h1
  rw [leBytes_length] at e1 h2
  have hm : s.length % 256 ^ n ≤ s.length := Nat.mod_le _ _
  have h3 : HoldsAt f (pos + n) (s.take (s.length % 256 ^ n)) := by
    rw [← List.take_append_drop (s.length % 256 ^ n) s] at h2
    exact (HoldsAt.append.mp h2).1
  have e2 := readS_holds (s := ⟨pos + n, false⟩) (junk := junk 1) rfl h3
  rw [List.length_take, Nat.min_eq_left hm] at e2
  simp only [Item.kind, Kind.read, e1, ofLe_leBytes, e2, Bool.true_eq_false, if_false]

/-- **C131** (negative) A string of 2^32 bytes with a length of 32 bits is read back as the empty string. -/
theorem string_lost (f : Mem 8) (s : List Byte) (hs : s.length = 256 ^ 4) (pos : Nat) (junk : Nat → Nat → Byte)
    (h : HoldsAt f pos (Item.str 4 s).bytes) :
    (Item.str 4 s).kind.read (fun _ => true) f ⟨pos, false⟩ junk = some (.str [], ⟨pos + 4, false⟩) := by
  rw [string_wraps f 4 s pos junk h, hs, Nat.mod_self]
  rfl

/-! ## The header is such a record -/

/-- The items of `Header::Serialize`, header.h:41-57. -/
def Header.items (h : Header) : List Item :=
  [.int 4 h.headerSize, .int 4 h.columnHeaderOffset, .int 4 h.columnCount, .str 4 h.name, .int 4 h.rowsPerBlock,
    .int 4 h.antennaCount, .int 4 h.blockSize, .int 2 h.versionMajor, .int 2 h.versionMinor, .int 1 h.dataBitCount,
    .int 1 h.weightBitCount, .int 1 h.distribution, .int 1 h.normalization, .int 8 h.studentTNu,
    .int 8 h.distributionTruncation]

/-- **C131** The bytes of the header of a file are those of the record of its items. -/
theorem serialize_record (h : Header) : h.serialize = record h.items := by
  simp [Header.serialize, record, Header.items, Item.bytes]

/-! ## Examples -/

/-- A record with all kinds of items. -/
def sampleRecord : List Item :=
  [.int 2 70000, .bool true, .ext 5 77, .str 8 [1, 2, 3], .extC 1 9 2 8, .int 8 12, .str 4 []]

example : readAll (fun _ => true) (fwriteList ⟨0, fun _ => 0⟩ 0 (record sampleRecord)) ⟨0, false⟩ (fun _ _ => 99)
    (sampleRecord.map Item.kind) =
      some ([.int 4464, .bool true, .int 5, .str [1, 2, 3], .cx 1 2, .int 12, .str []], ⟨74, false⟩) := by
  rw [record_round_trip (fun _ => true) _ sampleRecord 0 _ (by simp [sampleRecord, Item.Fits, Item.Allocates])
    (holdsAt_fwriteList _ _)]
  rfl

theorem sampleRecord_length : (record sampleRecord).length = 74 := by decide

/-- The same record in a file of 73 bytes. -/
example {f : Mem 8} (hf : f.len = 73) (hget : ∀ i < 73, (fwriteList ⟨0, fun _ => 0⟩ 0 (record sampleRecord)).get i = f.get i)
    {vs : List Val} {s : Str} (h : readAll (fun _ => true) f ⟨0, false⟩ (fun _ _ => 99)
      (sampleRecord.map Item.kind) = some (vs, s)) : s.fail = true :=
  record_cut (alloc := fun _ => true) (g := fwriteList ⟨0, fun _ => 0⟩ 0 (record sampleRecord))
    ⟨by simp [fwriteList, fwrite, sampleRecord_length, hf], fun i hi => hget i (hf ▸ hi)⟩
    (by simp [sampleRecord, Item.Fits, Item.Allocates]) (fun _ h => h) (holdsAt_fwriteList _ _)
    (by intro h; have := sampleRecord_length; rw [h] at this; exact absurd this (by decide))
    (by rw [sampleRecord_length, hf]; decide) h

/-- A string of 300 bytes with a length of one byte: 44 bytes are read. -/
example (s : List Byte) (hs : s.length = 300) (junk : Nat → Nat → Byte) : (Item.str 1 s).kind.read (fun _ => true)
    (fwriteList ⟨0, fun _ => 0⟩ 0 (Item.str 1 s).bytes) ⟨0, false⟩ junk = some (.str (s.take 44), ⟨45, false⟩) := by
  rw [string_wraps _ 1 _ 0 junk (holdsAt_fwriteList _ _), hs]
  rfl

example (f : Mem 8) (junk : Nat → Nat → Byte) (h : HoldsAt f 0 (Item.str 4 (List.replicate (256 ^ 4) 7)).bytes) :
    (Item.str 4 (List.replicate (256 ^ 4) 7)).kind.read (fun _ => true) f ⟨0, false⟩ junk =
      some (.str [], ⟨4, false⟩) :=
  string_lost f _ List.length_replicate 0 junk h

end Dysco.StMan
