import Mathlib.Tactic.Common

/-!
# C153: a block whose loading fails

`loadBlock` decodes into the buffer of the current block, row by row, and asks the table for the antennas of each row. It sets the
number of the current block at the end. If reading the file or one of the antennas raises an exception, the buffer and the number do
not belong together any more. The client is modelled alone: a block that is stored counts as written at once, because `getValues` waits
until the block it reads is not in the cache. The values in the file are those that decoding gives.
-/

namespace Dysco.Failed

variable {V : Type}

/-- A row of the block buffer: `none` if its `visibilities` is an empty vector. timeblockbuffer.h:21-24. -/
abbrev Row (V : Type) := Option V

/-- The state of a column that matters here: threadeddyscocolumn.h:222-227. `buf` is the buffer with `len` rows, `file` the decoded
rows of the `blocks` stored blocks. -/
structure State (V : Type) where
  cur : Nat
  changed : Bool
  len : Nat
  buf : Nat → Row V
  blocks : Nat
  file : Nat → Nat → Row V

/-- What fails in one call of `loadBlock`: reading the file (threadeddyscocolumn.cc:81), or the antennas of row `j` of the block
(96-97). Not in the code. -/
structure Faults where
  read : Bool
  row : Nat → Bool

/-- The loop over the rows, threadeddyscocolumn.cc:95-100: `j` is the next row, `left` the number of rows that remain. -/
def decodeLoop (dec : Nat → Row V) (fails : Nat → Bool) : Nat → Nat → (Nat → Row V) → (Nat → Row V) × Bool
  | 0, _, buf => (buf, true)
  | left + 1, j, buf =>
    if fails j then (buf, false) else decodeLoop dec fails left (j + 1) (fun i => if i = j then dec j else buf i)

/-- `resize`, timeblockbuffer.h:19: new rows are empty. -/
def resize (s : State V) (rows : Nat) : State V := { s with len := rows, buf := fun i => if i < s.len then s.buf i else none }

/-- `loadBlock`, threadeddyscocolumn.cc:79-104, and whether it returned normally. -/
def loadBlock (rows : Nat) (s : State V) (b : Nat) (f : Faults) : State V × Bool :=
  if b < s.blocks then
    if f.read then (s, false)
    else
      let s := resize s rows
      match decodeLoop (s.file b) f.row rows 0 s.buf with
      | (buf, true) => ({ s with buf := buf, cur := b, changed := false }, true)
      | (buf, false) => ({ s with buf := buf }, false)
  else ({ s with cur := b, changed := false }, true)

/-- `storeBlock`, threadeddyscocolumn.cc:145-167, with the effect of the encoder thread; `code` is encoding followed by decoding. -/
def storeBlock (code : (Nat → Row V) → Nat → Row V) (s : State V) : State V :=
  { s with
    file := fun b => if b = s.cur then code (fun i => if i < s.len then s.buf i else none) else s.file b
    blocks := max s.blocks (s.cur + 1), changed := false, len := 0, buf := fun _ => none }

/-- Lines 132-135 and 207-212 of threadeddyscocolumn.cc: go to another block. -/
def goTo (code : (Nat → Row V) → Nat → Row V) (rows : Nat) (s : State V) (b : Nat) (f : Faults) : State V × Bool :=
  if s.cur = b then (s, true) else loadBlock rows (if s.changed then storeBlock code s else s) b f

/-- The outcome of reading a row: zeros, threadeddyscocolumn.cc:118; the content of a row of the buffer, 139 (nothing is copied if it is
empty); a row that the buffer does not have, which is undefined; or an exception. -/
inductive Outcome (V : Type) where
  | zero
  | row (v : Row V)
  | outside
  | throws

/-- `getValues` of row `j` of block `b`, threadeddyscocolumn.cc:107-143, when the layout is known. -/
def get (code : (Nat → Row V) → Nat → Row V) (rows : Nat) (s : State V) (b j : Nat) (f : Faults) : State V × Outcome V :=
  if s.blocks ≤ b then (s, .zero)
  else match goTo code rows s b f with
    | (s, true) => (s, if j < s.len then .row (s.buf j) else .outside)
    | (s, false) => (s, .throws)

/-- `putValues` of row `j` of block `b`, threadeddyscocolumn.cc:202-217, when the layout is known; `SetData` is timeblockbuffer.h:30-39. -/
def put (code : (Nat → Row V) → Nat → Row V) (rows : Nat) (s : State V) (b j : Nat) (v : V) (f : Faults) : State V × Bool :=
  match goTo code rows s b f with
  | (s, true) =>
    let s := if s.len ≤ j then resize s (j + 1) else s
    ({ s with buf := fun i => if i = j then some v else s.buf i, changed := true }, true)
  | (s, false) => (s, false)

/-- Row `k` is the first of the block whose antennas cannot be read. Not in the code. -/
def FirstFault (f : Faults) (rows k : Nat) : Prop := k < rows ∧ f.row k = true ∧ ∀ i, i < k → f.row i = false

theorem decodeLoop_ok (dec : Nat → Row V) (fails : Nat → Bool) : ∀ (left j : Nat) (buf : Nat → Row V),
    (∀ i, j ≤ i → i < j + left → fails i = false) →
    decodeLoop dec fails left j buf = (fun i => if j ≤ i ∧ i < j + left then dec i else buf i, true)
  | 0, j, buf, _ => by
    refine Prod.ext (funext fun i => ?_) rfl
    show buf i = if _ then _ else _
    rw [if_neg (by omega)]
  | left + 1, j, buf, h => by
    unfold decodeLoop
    rw [h j (Nat.le_refl _) (by omega), if_neg (by decide), decodeLoop_ok dec fails left (j + 1) _ fun i h1 h2 => h i (by omega) (by omega)]
    refine Prod.ext (funext fun i => ?_) rfl
    show (if _ then _ else if _ then _ else _) = if _ then _ else _
    by_cases hi : i = j
    · subst hi
      rw [if_neg (by omega), if_pos rfl, if_pos (by omega)]
    · rw [if_neg hi]
      by_cases h2 : j ≤ i ∧ i < j + (left + 1)
      · rw [if_pos h2, if_pos (by omega)]
      · rw [if_neg h2, if_neg (by omega)]

theorem decodeLoop_fails (dec : Nat → Row V) (fails : Nat → Bool) {k : Nat} (hk : fails k = true) : ∀ (left j : Nat) (buf : Nat → Row V),
    j ≤ k → k < j + left → (∀ i, j ≤ i → i < k → fails i = false) →
    decodeLoop dec fails left j buf = (fun i => if j ≤ i ∧ i < k then dec i else buf i, false)
  | 0, j, buf, h1, h2, _ => by omega
  | left + 1, j, buf, h1, h2, h => by
    unfold decodeLoop
    by_cases hj : j = k
    · subst hj
      rw [if_pos hk]
      refine Prod.ext (funext fun i => ?_) rfl
      show buf i = if _ then _ else _
      rw [if_neg (by omega)]
    · rw [h j (Nat.le_refl _) (by omega), if_neg (by decide),
        decodeLoop_fails dec fails hk left (j + 1) _ (by omega) (by omega) fun i h1 h2 => h i (by omega) h2]
      refine Prod.ext (funext fun i => ?_) rfl
      show (if _ then _ else if _ then _ else _) = if _ then _ else _
      by_cases hi : i = j
      · subst hi
        rw [if_neg (by omega), if_pos rfl, if_pos (by omega)]
      · rw [if_neg hi]
        by_cases h2 : j ≤ i ∧ i < k
        · rw [if_pos h2, if_pos (by omega)]
        · rw [if_neg h2, if_neg (by omega)]

/-- The buffer is that of a stored block. Not in the code. -/
def Fresh (rows : Nat) (s : State V) : Prop :=
  s.changed = false ∧ (s.cur < s.blocks → s.len = rows ∧ ∀ j, j < rows → s.buf j = s.file s.cur j)

/-- **C153**: nothing wrong happens while every failure is in reading the file: reads give the stored rows or raise an exception, and the
buffer stays that of the current block. -/
theorem get_fresh (code : (Nat → Row V) → Nat → Row V) {rows : Nat} {s : State V} (h : Fresh rows s) {b j : Nat} (hb : b < s.blocks)
    (hj : j < rows) {f : Faults} (hf : ∀ i, i < rows → f.row i = false) :
    ∃ s' o, get code rows s b j f = (s', o) ∧ Fresh rows s' ∧ s'.blocks = s.blocks ∧ s'.file = s.file ∧
      ((∃ v, o = .row v ∧ v = s.file b j ∧ s'.cur = b) ∨ (o = .throws ∧ f.read = true ∧ s.cur ≠ b ∧ s' = s)) := by
  unfold get goTo
  rw [if_neg (by omega)]
  by_cases hc : s.cur = b
  · rw [if_pos hc]
    subst hc
    obtain ⟨h1, h2⟩ := h.2 hb
    refine ⟨s, _, rfl, h, rfl, rfl, Or.inl ⟨s.buf j, ?_, h2 j hj, rfl⟩⟩
    rw [if_pos (by omega)]
  · rw [if_neg hc, h.1, if_neg (by decide)]
    unfold loadBlock
    rw [if_pos hb]
    cases hr : f.read with
    | true => exact ⟨s, _, rfl, h, rfl, rfl, Or.inr ⟨rfl, rfl, hc, rfl⟩⟩
    | false =>
      rw [if_neg (by decide)]
      dsimp only
      rw [decodeLoop_ok _ f.row rows 0 _ fun i _ hi => hf i (by omega)]
      refine ⟨_, _, rfl, ⟨rfl, fun _ => ⟨rfl, fun i hi => if_pos ⟨Nat.zero_le _, by omega⟩⟩⟩, rfl, rfl, Or.inl ⟨s.file b j, ?_, rfl, rfl⟩⟩
      show (if j < rows then Outcome.row (if _ then _ else _) else _) = _
      rw [if_pos hj, if_pos ⟨Nat.zero_le _, by omega⟩]
      rfl

/-- A sequence of reads: block, row and faults of each. Not in the code. -/
def gets (code : (Nat → Row V) → Nat → Row V) (rows : Nat) : State V → List (Nat × Nat × Faults) → State V × List (Outcome V)
  | s, [] => (s, [])
  | s, (b, j, f) :: rest =>
    let r := get code rows s b j f
    let t := gets code rows r.1 rest
    (t.1, r.2 :: t.2)

/-- **C153**, for any sequence of reads in which only reading the file fails: each gives the stored row or raises an exception. -/
theorem gets_fresh (code : (Nat → Row V) → Nat → Row V) {rows : Nat} : ∀ {s : State V} (_ : Fresh rows s) {calls : List (Nat × Nat × Faults)}
    (_ : ∀ c ∈ calls, c.1 < s.blocks ∧ c.2.1 < rows ∧ ∀ i, i < rows → c.2.2.row i = false),
    Fresh rows (gets code rows s calls).1 ∧ (gets code rows s calls).1.file = s.file ∧ (gets code rows s calls).2.length = calls.length ∧
      ∀ (n b j : Nat) (f : Faults), calls[n]? = some (b, j, f) → (gets code rows s calls).2[n]? = some (.row (s.file b j)) ∨
        ((gets code rows s calls).2[n]? = some .throws ∧ f.read = true)
  | s, h, [], _ => ⟨h, rfl, rfl, fun n b j f hn => by simp at hn⟩
  | s, h, (b, j, f) :: rest, hc => by
    obtain ⟨h1, h2, h3⟩ := hc _ List.mem_cons_self
    obtain ⟨s', o, e, k1, k2, k3, k4⟩ := get_fresh code h h1 h2 h3
    have he : gets code rows s ((b, j, f) :: rest) = ((gets code rows s' rest).1, o :: (gets code rows s' rest).2) := by
      simp only [gets, e]
    obtain ⟨m1, m2, m3, m4⟩ := gets_fresh code k1 (calls := rest) fun c hm => by
      rw [k2]
      exact hc c (List.mem_cons_of_mem _ hm)
    rw [he]
    refine ⟨m1, m2.trans k3, by simp [m3], fun n b' j' f' hn => ?_⟩
    cases n with
    | zero =>
      rw [List.getElem?_cons_zero] at hn
      obtain ⟨rfl, rfl, rfl⟩ : b = b' ∧ j = j' ∧ f = f' := by simpa using hn
      rw [List.getElem?_cons_zero]
      rcases k4 with ⟨v, rfl, rfl, -⟩ | ⟨rfl, k, -, -⟩
      · exact Or.inl rfl
      · exact Or.inr ⟨rfl, k⟩
    | succ n =>
      rw [List.getElem?_cons_succ] at hn ⊢
      rw [← k3]
      exact m4 n b' j' f' hn

/-- The state in which the failing load starts: a changed block is stored first. Not in the code. -/
def before (code : (Nat → Row V) → Nat → Row V) (s : State V) : State V := if s.changed then storeBlock code s else s

/-- **C153**: what a read of block `b` leaves if row `k` of it is the first whose antennas cannot be read: the number of the current
block is the old one, but the first `k` rows of the buffer are those of `b`. -/
theorem get_fails (code : (Nat → Row V) → Nat → Row V) {rows : Nat} {s : State V} {b j k : Nat} (hb : b < s.blocks) (hc : s.cur ≠ b)
    {f : Faults} (hr : f.read = false) (hk : FirstFault f rows k) :
    ∃ s', get code rows s b j f = (s', .throws) ∧ s'.cur = s.cur ∧ s'.changed = false ∧ s'.len = rows ∧
      s'.blocks = (before code s).blocks ∧ s'.file = (before code s).file ∧
      (∀ i, i < k → s'.buf i = s.file b i) ∧
      ∀ i, k ≤ i → s'.buf i = if i < (before code s).len then (before code s).buf i else none := by
  have hb' : b < (before code s).blocks := by
    unfold before storeBlock
    split
    · show b < max _ _
      omega
    · exact hb
  have hfile : (before code s).file b = s.file b := by
    unfold before storeBlock
    split
    · exact if_neg (Ne.symm hc)
    · rfl
  have hcur : (before code s).cur = s.cur := by
    unfold before storeBlock
    split <;> rfl
  have hch : (before code s).changed = false := by
    unfold before storeBlock
    split
    · rfl
    · rename_i h
      exact Bool.eq_false_iff.2 h
  unfold get goTo
  rw [if_neg (by omega), if_neg hc]
  change ∃ s', (match loadBlock rows (before code s) b f with
    | (s, true) => (s, if j < s.len then Outcome.row (s.buf j) else .outside)
    | (s, false) => (s, .throws)) = (s', .throws) ∧ _
  unfold loadBlock
  rw [if_pos hb', hr, if_neg (by decide)]
  dsimp only
  rw [decodeLoop_fails _ f.row hk.2.1 rows 0 _ (Nat.zero_le _) (by have := hk.1; omega) fun i _ hi => hk.2.2 i hi]
  refine ⟨_, rfl, hcur, hch, rfl, rfl, rfl, fun i hi => ?_, fun i hi => ?_⟩
  · show (if _ then (before code s).file b i else _) = _
    rw [if_pos ⟨Nat.zero_le _, hi⟩, hfile]
  · show (if _ then _ else _) = _
    rw [if_neg (by omega)]
    rfl

/-- **C153**: after such an exception, reading row `i` of the block that was current gives row `i` of the other block, for all `i` below
`k`, without any error. -/
theorem misread (code : (Nat → Row V) → Nat → Row V) {rows : Nat} {s : State V} {b j k : Nat} (hb : b < s.blocks) (hc : s.cur ≠ b)
    {f : Faults} (hr : f.read = false) (hk : FirstFault f rows k) {i : Nat} (hi : i < k) (hs : s.cur < s.blocks) (f' : Faults) :
    ∃ s' s'', get code rows s b j f = (s', .throws) ∧ get code rows s' s.cur i f' = (s'', .row (s.file b i)) := by
  obtain ⟨s', e, h1, -, h3, h4, -, h6, -⟩ := get_fails code (j := j) hb hc hr hk
  have hbl : s.blocks ≤ (before code s).blocks := by
    unfold before storeBlock
    split
    · exact Nat.le_max_left _ _
    · exact Nat.le_refl _
  refine ⟨s', s', e, ?_⟩
  unfold get goTo
  rw [if_neg (by omega), if_pos h1]
  dsimp only
  have := hk.1
  rw [if_pos (by omega), h6 i hi]

/-- **C153**: putting a row of the block that was current and then going to any other block stores the rows of `b` under the number of the
block that was current: of its own rows only those from `k` on are kept, and not even these if the block had been changed. -/
theorem overwritten (code : (Nat → Row V) → Nat → Row V) {rows : Nat} {s : State V} {b j k : Nat} (hb : b < s.blocks) (hc : s.cur ≠ b)
    {f : Faults} (hr : f.read = false) (hk : FirstFault f rows k) {i : Nat} (hi : i < rows) (v : V) (f' : Faults) :
    ∃ s' s'', get code rows s b j f = (s', .throws) ∧ put code rows s' s.cur i v f' = (s'', true) ∧ s''.cur = s.cur ∧
      (storeBlock code s'').file s.cur = code fun x =>
        if x < rows then
          if x = i then some v
          else if x < k then s.file b x
          else if s.changed then none
          else if x < s.len then s.buf x else none
        else none := by
  obtain ⟨s', e, h1, -, h3, -, -, h6, h7⟩ := get_fails code (j := j) hb hc hr hk
  have hp : put code rows s' s.cur i v f' = ({ s' with buf := fun x => if x = i then some v else s'.buf x, changed := true }, true) := by
    unfold put goTo
    rw [if_pos h1]
    dsimp only
    rw [if_neg (by omega)]
  refine ⟨s', _, e, hp, h1, ?_⟩
  show (if s.cur = s'.cur then code _ else _) = _
  rw [if_pos h1.symm]
  refine congrArg code (funext fun x => ?_)
  show (if x < s'.len then if x = i then some v else s'.buf x else none) = _
  rw [h3]
  refine if_congr Iff.rfl (if_congr Iff.rfl rfl ?_) rfl
  by_cases hx : x < k
  · rw [if_pos hx, h6 x hx]
  · rw [if_neg hx, h7 x (by omega)]
    unfold before storeBlock
    split
    · exact if_neg (Nat.not_lt_zero _)
    · rfl

/-- **C153**: if the file cannot be read while the current block has changes, these are stored and the buffer is empty, but still counts as
the current block: reading any row of it goes outside the buffer. -/
theorem read_fails_changed (code : (Nat → Row V) → Nat → Row V) {rows : Nat} {s : State V} {b j : Nat} (hb : b < s.blocks) (hc : s.cur ≠ b)
    (hs : s.changed = true) {f : Faults} (hr : f.read = true) (i : Nat) (f' : Faults) :
    get code rows s b j f = (storeBlock code s, .throws) ∧
      get code rows (storeBlock code s) s.cur i f' = (storeBlock code s, .outside) := by
  constructor
  · unfold get goTo
    rw [if_neg (by omega), if_neg hc, if_pos hs]
    unfold loadBlock
    have h : b < (storeBlock code s).blocks := Nat.lt_of_lt_of_le hb (Nat.le_max_left _ _)
    rw [if_pos h, if_pos hr]
  · unfold get goTo
    have h : s.cur < (storeBlock code s).blocks := Nat.lt_of_lt_of_le (Nat.lt_succ_self _) (Nat.le_max_right _ _)
    rw [if_neg (by omega), if_pos (show (storeBlock code s).cur = s.cur from rfl)]
    rfl

/-- **C153**: a put that fails in loading its block leaves what a failing read of that block leaves; its value is nowhere. -/
theorem put_fails (code : (Nat → Row V) → Nat → Row V) {rows : Nat} {s : State V} {b : Nat} (hb : b < s.blocks) (i j : Nat) (v : V)
    (f : Faults) :
    ((put code rows s b i v f).2 = false ↔ (get code rows s b j f).2 = .throws) ∧
    ((put code rows s b i v f).2 = false → (put code rows s b i v f).1 = (get code rows s b j f).1) := by
  unfold put get
  rw [if_neg (by omega)]
  rcases goTo code rows s b f with ⟨t, _ | _⟩
  · exact ⟨⟨fun _ => rfl, fun _ => rfl⟩, fun _ => rfl⟩
  · refine ⟨⟨fun h => (by cases h), fun h => ?_⟩, fun h => (by cases h)⟩
    dsimp only at h
    split at h <;> cases h

/-- Two blocks of three rows; block zero is in memory, and block one has the rows 10, 11 and 12. -/
def two : State Nat := ⟨0, false, 3, fun i => if i < 3 then some i else none, 2, fun b i => if i < 3 then some (10 * b + i) else none⟩

/-- The antennas of the last row cannot be read, as for a last block that is not complete. -/
def lastRow : Faults := ⟨false, fun i => i == 2⟩

theorem two_fresh : Fresh 3 two := ⟨rfl, fun _ => ⟨rfl, fun j hj => by
  show (if j < 3 then some j else none) = if j < 3 then some (10 * 0 + j) else none
  rw [if_pos hj, if_pos hj, Nat.mul_zero, Nat.zero_add]⟩⟩

/-- Reading block one fails, and succeeds when it is tried again. -/
example : (gets id 3 two [(1, 2, ⟨true, fun _ => false⟩), (1, 2, ⟨false, fun _ => false⟩)]).2[1]? = some (.row (some 12)) := by
  rcases (gets_fresh id two_fresh (calls := [(1, 2, ⟨true, fun _ => false⟩), (1, 2, ⟨false, fun _ => false⟩)]) (by
    intro c hc
    rcases List.mem_cons.1 hc with rfl | hc
    · exact ⟨by decide, by decide, fun _ _ => rfl⟩
    · obtain rfl := List.mem_singleton.1 hc
      exact ⟨by decide, by decide, fun _ _ => rfl⟩)).2.2.2 1 1 2 _ rfl with h | ⟨-, h⟩
  · exact h
  · cases h

/-- Row one of block zero reads as 11 after the failure. -/
example : ∃ s' s'', get id 3 two 1 0 lastRow = (s', .throws) ∧ get id 3 s' 0 1 lastRow = (s'', .row (some 11)) :=
  misread id (k := 2) (by decide) (by decide) rfl ⟨by decide, rfl, by decide⟩ (by decide) (by decide) lastRow

/-- After putting 7 into row two, block zero is stored with the rows 10, 11 and 7. -/
example : ∃ s' s'', get id 3 two 1 0 lastRow = (s', .throws) ∧ put id 3 s' 0 2 7 lastRow = (s'', true) ∧
    ((storeBlock id s'').file 0 0, (storeBlock id s'').file 0 1, (storeBlock id s'').file 0 2) = (some 10, some 11, some 7) := by
  obtain ⟨s', s'', h1, h2, -, h4⟩ := overwritten id (s := two) (b := 1) (j := 0) (k := 2) (by decide) (by decide) (f := lastRow) rfl
    ⟨by decide, rfl, by decide⟩ (i := 2) (rows := 3) (by decide) 7 lastRow
  refine ⟨s', s'', h1, h2, ?_⟩
  change (storeBlock id s'').file 0 = _ at h4
  rw [h4]
  rfl

/-- A put into block one fails too. -/
example : (put id 3 two 1 0 5 lastRow).2 = false :=
  (put_fails id (by decide) 0 0 5 lastRow).1.2
    (by obtain ⟨s', h, -⟩ := get_fails id (s := two) (rows := 3) (b := 1) (j := 0) (k := 2) (by decide) (by decide) (f := lastRow) rfl
          ⟨by decide, rfl, by decide⟩
        rw [h])

/-- A changed block, and a file that cannot be read. -/
example : (get id 3 { two with changed := true } 1 0 ⟨true, fun _ => false⟩).2 = .throws :=
  congrArg Prod.snd (read_fails_changed id (s := { two with changed := true }) (b := 1) (by decide) (by decide) rfl
    (f := ⟨true, fun _ => false⟩) rfl 0 lastRow).1

end Dysco.Failed
