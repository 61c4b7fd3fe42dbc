import Verif.CompressProps
import Verif.CmdProps

/-!
# From the command line of dscompress to the settings in the file: C109

`atoi` of the C library is modelled; its result for numbers outside the range of `int` is undefined in C and is an arbitrary
function here. `atof` stays abstract; it gives the bits of a `double`.
-/

namespace Dysco.Compress
open Tools

/-! ## Model -/

/-- `isspace` in the C locale. The C library; not in the code. -/
def isSpace (c : Char) : Bool := c == ' ' || c == '\t' || c == '\n' || c == '\x0b' || c == '\x0c' || c == '\r'

/-- The value of the digits at the start of a string, with the value so far. The C library; not in the code. -/
def readDigits : Nat → List Char → Nat
  | a, [] => a
  | a, c :: s => if c.isDigit then readDigits (10 * a + (c.toNat - '0'.toNat)) s else a

/-- The number after the spaces. The C library; not in the code. -/
def readSigned : List Char → Int
  | '-' :: r => -(readDigits 0 r : Int)
  | '+' :: r => readDigits 0 r
  | r => readDigits 0 r

/-- `atoi`, used in dscompress.cc:149, 152: spaces, a sign, digits. `over` is the result when the number is not an `int`. -/
def atoi (over : Arg → Int) (s : Arg) : Int :=
  let v := readSigned (s.dropWhile isSpace)
  if -2 ^ 31 ≤ v ∧ v < 2 ^ 31 then v else over s

/-- Conversion of an `int` to `unsigned`, dscompress.cc:149, 152. -/
def toUnsigned (v : Int) : Nat := (v % 2 ^ 32).toNat

/-- The conversions and the literals of dscompress.cc:138-139, 149, 152, 164; doubles are given by their bits. -/
def conv (over : Arg → Int) (atof : Arg → Nat) : Conv Nat Nat :=
  ⟨fun s => toUnsigned (atoi over s), atof, 8, 12, defaultTruncation⟩

/-! ## Numbers on the command line -/

/-- The argument is the decimal number `n`, with spaces and zeros in front of it and something else after it. -/
def Writes (v : Arg) (n : Nat) : Prop :=
  ∃ (ws tl : Arg) (z : Nat), v = ws ++ (List.replicate z '0' ++ (Nat.toDigits 10 n ++ tl)) ∧ (∀ c ∈ ws, isSpace c = true) ∧
    ∀ c, tl.head? = some c → c.isDigit = false

/-- The same with a minus sign. -/
def WritesNeg (v : Arg) (n : Nat) : Prop :=
  ∃ (ws tl : Arg) (z : Nat), v = ws ++ '-' :: (List.replicate z '0' ++ (Nat.toDigits 10 n ++ tl)) ∧
    (∀ c ∈ ws, isSpace c = true) ∧ ∀ c, tl.head? = some c → c.isDigit = false

/-- The argument does not begin with a number. -/
def NoNumber (v : Arg) : Prop :=
  ∃ (ws tl : Arg), v = ws ++ tl ∧ (∀ c ∈ ws, isSpace c = true) ∧
    ∀ c, tl.head? = some c → isSpace c = false ∧ c ≠ '-' ∧ c ≠ '+' ∧ c.isDigit = false

theorem dropWhile_spaces {ws r : Arg} (h : ∀ c ∈ ws, isSpace c = true) (hr : ∀ c, r.head? = some c → isSpace c = false) :
    (ws ++ r).dropWhile isSpace = r := by
  induction ws with
  | nil =>
    cases r with
    | nil => rfl
    | cons c r => simp [hr c rfl]
  | cons c ws ih =>
    rw [List.cons_append, List.dropWhile_cons, if_pos (h c (by simp))]
    exact ih fun d hd => h d (by simp [hd])

theorem readDigits_append (l tl : Arg) (hl : ∀ c ∈ l, c.isDigit = true) (ht : ∀ c, tl.head? = some c → c.isDigit = false) :
    ∀ a, readDigits a (l ++ tl) = Nat.ofDigitChars 10 l a := by
  induction l with
  | nil =>
    intro a
    cases tl with
    | nil => simp [readDigits]
    | cons c tl => simp [readDigits, ht c rfl]
  | cons c l ih =>
    intro a
    rw [List.cons_append, readDigits, if_pos (hl c (by simp)), ih fun d hd => hl d (by simp [hd]), Nat.ofDigitChars_cons]

theorem readDigits_number (z n : Nat) (tl : Arg) (ht : ∀ c, tl.head? = some c → c.isDigit = false) :
    readDigits 0 (List.replicate z '0' ++ (Nat.toDigits 10 n ++ tl)) = n := by
  rw [← List.append_assoc, readDigits_append _ _ _ ht, Nat.ofDigitChars_append, Nat.ofDigitChars_replicate_zero]
  · simp
  · intro c hc
    rcases List.mem_append.1 hc with h | h
    · rw [List.eq_of_mem_replicate h]; rfl
    · exact Nat.isDigit_of_mem_toDigits (by decide) (by decide) h

theorem digit_facts {c : Char} (h : c.isDigit = true) : isSpace c = false ∧ c ≠ '-' ∧ c ≠ '+' := by
  have key : ∀ d : Char, d.isDigit = false → c ≠ d := fun d hd e => by rw [e, hd] at h; cases h
  refine ⟨?_, key _ rfl, key _ rfl⟩
  unfold isSpace
  simp only [Bool.or_eq_false_iff, beq_eq_false_iff_ne]
  exact ⟨⟨⟨⟨⟨key _ rfl, key _ rfl⟩, key _ rfl⟩, key _ rfl⟩, key _ rfl⟩, key _ rfl⟩

theorem number_head (z n : Nat) (tl : Arg) : ∃ c r, List.replicate z '0' ++ (Nat.toDigits 10 n ++ tl) = c :: r ∧ c.isDigit = true := by
  cases z with
  | succ z => exact ⟨'0', _, rfl, rfl⟩
  | zero =>
    cases hd : Nat.toDigits 10 n with
    | nil => exact absurd hd Nat.toDigits_ne_nil
    | cons c r =>
      exact ⟨c, r ++ tl, rfl, Nat.isDigit_of_mem_toDigits (b := 10) (n := n) (by decide) (by decide) (by rw [hd]; simp)⟩

/-- C109: `atoi` reads decimal numbers. -/
theorem atoi_number (over : Arg → Int) {v : Arg} {n : Nat} (h : Writes v n) (hn : n < 2 ^ 31) : atoi over v = n := by
  obtain ⟨ws, tl, z, rfl, hw, ht⟩ := h
  have hr := readDigits_number z n tl ht
  obtain ⟨c, r, hc, hd⟩ := number_head z n tl
  obtain ⟨h1, h2, h3⟩ := digit_facts hd
  rw [hc] at hr ⊢
  unfold atoi
  rw [dropWhile_spaces hw (by intro d hd; cases hd; exact h1)]
  have : readSigned (c :: r) = n := by
    unfold readSigned
    split
    · rename_i e; cases e; exact absurd rfl h2
    · rename_i e; cases e; exact absurd rfl h3
    · rw [hr]
  simp only [this]
  rw [if_pos]
  constructor
  · have := Int.natCast_nonneg n; omega
  · exact_mod_cast hn

/-- C109: negative numbers. -/
theorem atoi_negative (over : Arg → Int) {v : Arg} {n : Nat} (h : WritesNeg v n) (hn : n ≤ 2 ^ 31) : atoi over v = -n := by
  obtain ⟨ws, tl, z, rfl, hw, ht⟩ := h
  unfold atoi
  rw [dropWhile_spaces hw (by intro d hd; cases hd; rfl)]
  simp only [readSigned, readDigits_number z n tl ht]
  rw [if_pos]
  have : (n : Int) ≤ 2 ^ 31 := by exact_mod_cast hn
  omega

/-- C109: an argument that does not begin with a number is read as zero. -/
theorem atoi_text (over : Arg → Int) {v : Arg} (h : NoNumber v) : atoi over v = 0 := by
  obtain ⟨ws, tl, rfl, hw, ht⟩ := h
  unfold atoi
  rw [dropWhile_spaces hw fun c hc => (ht c hc).1]
  have h0 : readDigits 0 tl = 0 := by
    cases tl with
    | nil => rfl
    | cons c r => simp [readDigits, (ht c rfl).2.2.2]
  have : readSigned tl = 0 := by
    unfold readSigned
    split
    · exact absurd rfl (ht '-' rfl).2.1
    · exact absurd rfl (ht '+' rfl).2.2.1
    · rw [h0]; rfl
  simp only [this]
  rw [if_pos (by decide)]

theorem toUnsigned_nat {n : Nat} (h : n < 2 ^ 32) : toUnsigned n = n := by
  unfold toUnsigned
  have : ((n : Int) % 2 ^ 32) = n := Int.emod_eq_of_lt (by omega) (by exact_mod_cast h)
  rw [this]; rfl

theorem toUnsigned_neg {n : Nat} (h : n < 2 ^ 32) (h0 : 0 < n) : toUnsigned (-(n : Int)) = 2 ^ 32 - n := by
  unfold toUnsigned
  omega

/-! ## Bit counts -/

/-- The bit counts that a command line stands for: the last one given, or else a default. -/
def BitsGiven (vs : List Arg) (default n : Nat) : Prop :=
  match vs.getLast? with
  | none => n = default
  | some v => (∀ k, k < 2 ^ 31 → Writes v k → n = k) ∧ (NoNumber v → n = 0) ∧
      ∀ k, 0 < k → k ≤ 2 ^ 31 → WritesNeg v k → n = 2 ^ 32 - k

theorem bits_given (over : Arg → Int) (atof : Arg → Nat) (vs : List Arg) (d : Nat) :
    BitsGiven vs d (lastOr (vs.map (conv over atof).atoi) d) := by
  unfold BitsGiven lastOr
  rw [List.getLast?_map]
  cases vs.getLast? with
  | none => rfl
  | some v =>
    refine ⟨fun k hk h => ?_, fun h => ?_, fun k h0 hk h => ?_⟩
    · show toUnsigned (atoi over v) = k
      rw [atoi_number over h hk, toUnsigned_nat (by omega)]
    · show toUnsigned (atoi over v) = 0
      rw [atoi_text over h]; rfl
    · show toUnsigned (atoi over v) = 2 ^ 32 - k
      rw [atoi_negative over h hk, toUnsigned_neg (by omega) h0]

open StMan World Prepare

/-- What a manager has of the settings on a command line. -/
structure HasSettings (atof : Arg → Nat) (items : List Item) (m : Man) : Prop where
  data : BitsGiven (items.filterMap Item.dataBits?) 8 m.dataBitCount
  weight : BitsGiven (items.filterMap Item.weightBits?) 12 m.weightBitCount
  distribution : m.distribution =
    match (items.filterMap Item.distribution?).getLast? with
    | some .gaussian => 0
    | some .uniform => 1
    | some .studentsT => 2
    | some .truncatedGaussian => 3
    | none => 3
  normalization : m.normalization =
    match (items.filterMap Item.normalization?).getLast? with
    | some .af => 0
    | some .rf => 1
    | some .row => 2
    | none => 0
  /-- for a truncated Gaussian distribution, the last truncation given, or else 2.5 -/
  truncation : m.distribution = 3 → m.distributionTruncation =
    match (items.filterMap Item.truncation?).getLast? with
    | some v => atof v
    | none => 0x4004000000000000

theorem withDefaultColumn_eq {N F : Type} (o : Options N F) :
    (withDefaultColumn o).distribution = o.distribution ∧ (withDefaultColumn o).normalization = o.normalization ∧
    (withDefaultColumn o).bitsPerFloat = o.bitsPerFloat ∧ (withDefaultColumn o).bitsPerWeight = o.bitsPerWeight ∧
    (withDefaultColumn o).truncation = o.truncation := by
  unfold withDefaultColumn
  split <;> exact ⟨rfl, rfl, rfl, rfl, rfl⟩

theorem manager_has (over : Arg → Int) (atof : Arg → Nat) (items : List Item) {m : Man}
    (h : SameSettings m (manager (withDefaultColumn (settings (conv over atof) items (defaults (conv over atof)))))) :
    HasSettings atof items m := by
  generalize ho : withDefaultColumn (settings (conv over atof) items (defaults (conv over atof))) = o at h
  obtain ⟨w1, w2, w3, w4, w5⟩ := withDefaultColumn_eq (settings (conv over atof) items (defaults (conv over atof)))
  rw [ho] at w1 w2 w3 w4 w5
  obtain ⟨-, -, f3, f4, f5, f6, -, f8, -⟩ := manager_fields o
  have d1 : m.distribution = match (items.filterMap Item.distribution?).getLast? with
      | some .gaussian => 0
      | some .uniform => 1
      | some .studentsT => 2
      | some .truncatedGaussian => 3
      | none => 3 := by
    rw [h.distribution, f5, w1]
    show distributionNumber (lastOr _ Distribution.truncatedGaussian) = _
    unfold lastOr
    rcases (items.filterMap Item.distribution?).getLast? with _ | d
    · rfl
    · cases d <;> rfl
  refine ⟨?_, ?_, d1, ?_, ?_⟩
  · rw [h.data, f3, w3]; exact bits_given over atof _ 8
  · rw [h.weight, f4, w4]; exact bits_given over atof _ 12
  · rw [h.normalization, f6, w2]
    show normalizationNumber (lastOr _ Normalization.af) = _
    unfold lastOr
    rcases (items.filterMap Item.normalization?).getLast? with _ | d
    · rfl
    · cases d <;> rfl
  · intro h3
    have hd : o.distribution = .truncatedGaussian := by
      rw [h.distribution, f5] at h3
      revert h3
      cases o.distribution <;> decide
    rw [h.truncation, f8, if_pos hd, w5]
    show lastOr _ defaultTruncation = _
    unfold lastOr
    rw [List.getLast?_map]
    cases (items.filterMap Item.truncation?).getLast? <;> rfl

/-- A manager cannot be made with zero bits: `createColumns` ends with an exception. -/
theorem createColumns_zero {o : Options Nat Nat} (h : o.bitsPerFloat = 0 ∨ o.bitsPerWeight = 0) (nRow nPol nCh : Nat)
    {columns : List Arg} (hc : columns ≠ []) : (createColumns o nRow nPol nCh columns).2 = false := by
  obtain ⟨-, -, f3, f4, -⟩ := manager_fields o
  cases columns with
  | nil => exact absurd rfl hc
  | cons name rest =>
    have hp : ∀ m : Man, m.dataBitCount = o.bitsPerFloat → m.weightBitCount = o.bitsPerWeight → (prepare m).2 = false := by
      intro m a b
      unfold prepare
      rw [if_pos (by rw [a, b]; exact h)]
    have := hp (create nRow { manager o with columns := [newColumn nPol nCh name] }) f3 f4
    simp only [createColumns]
    split
    · rfl
    · rename_i e
      rw [e] at this
      cases this

/-- The columns on a command line. -/
def columnsGiven (items : List Item) : List Arg :=
  match items.filterMap Item.column? with
  | [] => ["DATA".toList]
  | l => l

theorem columnsGiven_ne (items : List Item) : columnsGiven items ≠ [] := by
  unfold columnsGiven
  split
  · simp
  · rename_i h; exact h

theorem columns_given (over : Arg → Int) (atof : Arg → Nat) (items : List Item) :
    (withDefaultColumn (settings (conv over atof) items (defaults (conv over atof)))).columns = columnsGiven items := by
  have hs : (settings (conv over atof) items (defaults (conv over atof))).columns = items.filterMap Item.column? := rfl
  unfold withDefaultColumn columnsGiven
  rw [hs]
  split
  · rename_i h; rw [h]
  · rename_i h
    split
    · rename_i h'; exact absurd h' h
    · exact hs

/-- C109: a command line of options and a path: the given columns are compressed, and a manager that is made has the last
given settings or the defaults. -/
theorem command_settings (over : Arg → Int) (atof : Arg → Nat) (items : List Item) (path : Arg) (rest : List Arg)
    (hp : ¬ IsOption path) :
    ∃ o, parse (conv over atof) (items.flatMap Item.render ++ path :: rest) = .run o path ∧ o.columns = columnsGiven items ∧
      BitsGiven (items.filterMap Item.dataBits?) 8 o.bitsPerFloat ∧
      BitsGiven (items.filterMap Item.weightBits?) 12 o.bitsPerWeight ∧
      ∀ nRow nPol nCh,
        (o.bitsPerFloat = 0 ∨ o.bitsPerWeight = 0 → (createColumns o nRow nPol nCh o.columns).2 = false) ∧
        (o.bitsPerFloat ≠ 0 → o.bitsPerWeight ≠ 0 →
          ∃ m, createColumns o nRow nPol nCh o.columns = (m, true) ∧ HasSettings atof items m) := by
  have hm := fun m => manager_has over atof items (m := m)
  have hc := columns_given over atof items
  obtain ⟨-, -, w3, w4, -⟩ := withDefaultColumn_eq (settings (conv over atof) items (defaults (conv over atof)))
  have b1 : BitsGiven (items.filterMap Item.dataBits?) 8 (settings (conv over atof) items (defaults (conv over atof))).bitsPerFloat :=
    bits_given over atof _ 8
  have b2 : BitsGiven (items.filterMap Item.weightBits?) 12 (settings (conv over atof) items (defaults (conv over atof))).bitsPerWeight :=
    bits_given over atof _ 12
  rw [← w3] at b1
  rw [← w4] at b2
  refine ⟨_, parse_run _ items path rest hp, hc, b1, b2, ?_⟩
  generalize withDefaultColumn (settings (conv over atof) items (defaults (conv over atof))) = o at *
  have hne : o.columns ≠ [] := by rw [hc]; exact columnsGiven_ne items
  intro nRow nPol nCh
  refine ⟨fun h => createColumns_zero h nRow nPol nCh hne, fun h1 h2 => ?_⟩
  obtain ⟨m, e, hs, -⟩ := createColumns_spec o h1 h2 nRow nPol nCh hne
  exact ⟨m, e, hm m hs⟩

open Col Multi End Layout BytePacker Stochastic

/-- C109: the whole way from the command line to the file: the file that a run leaves can be opened, and the manager that is
read from it has the settings of the command line. -/
theorem command_end_to_end (over : Arg → Int) (atof : Arg → Nat) (items : List Item) (path : Arg) (rest : List Arg)
    (hp : ¬ IsOption path) {view : View Cell} (hv : Faithful view) {t : Tab} {M : MS}
    (h : Input t (columnsGiven items) M) (hf : M.Flags (columnsGiven items) t.nrow)
    (hc : check differs (M.rows t.nrow) = .ok ()) (hsmall : t.nrow ≤ noBlock) :
    ∃ o, parse (conv over atof) (items.flatMap Item.render ++ path :: rest) = .run o path ∧ o.columns = columnsGiven items ∧
    ∃ t', Runs (dscompress view (columnsGiven items)) t () t' ∧
    ∃ rows q, Regular differs (M.rows t.nrow) rows ∧ t.nrow = q * rows ∧
    ∀ {nPol nCh ants : Nat}, 1 < q → AntennaCount rows M.ant ants → Fits o nPol nCh (columnsGiven items) rows ants →
    ∃ m, createColumns o t.nrow nPol nCh (columnsGiven items) = (m, true) ∧ HasSettings atof items m ∧
    ∀ {sq : Fl → Fl} {libs : Libs} {fuel : Nat} {e0 d0 : Nat → Fl} {e : Stochastic.Encoder} {gd : Grid}, AF.SqrtMono sq →
      quantiser libs fuel m e0 d0 = some e → Quantised e o.bitsPerFloat gd →
      (∀ i, Fine (settled o nPol nCh (columnsGiven items)[i]) rows t.nrow ants M.ant (kindAt (columnsGiven items) i)
        (given M (columnsGiven items) i)) →
    ∀ {P : (i : Fin (columnsGiven items).length) → Params (DataRow (Elem (kindAt (columnsGiven items) i))) Key},
      Clients P M t.nrow →
    ∀ {prog : List (MOp fun i => DataRow (Elem (kindAt (columnsGiven items) i)))},
      (∀ i col, t'.cols (columnsGiven items)[i] = some col →
        ops i prog = calls M (kindAt (columnsGiven items) i) col.puts) →
    ∀ {k : Key} {w : WState P}, WReach (fun i => codec sq e M.ant (kindAt (columnsGiven items) i))
        ⟨minitial P k 0 (fun _ _ => none) 0 prog, m⟩ w → w.cols.pc = .closed →
    ∀ (nRow' : Nat) (m0 : Man), List.Forall₂ SameShape m0.columns ((columnsGiven items).map (newColumn nPol nCh)) →
      ∃ r man, openFile nRow' m0 w.man.file = .ok r ∧ prepare r = (man, true) ∧ HasSettings atof items man := by
  have hm := fun m => manager_has over atof items (m := m)
  refine ⟨_, parse_run _ items path rest hp, columns_given over atof items, ?_⟩
  generalize withDefaultColumn (settings (conv over atof) items (defaults (conv over atof))) = o at *
  obtain ⟨t', hrun, -, rows, q, hreg, hq, H⟩ := dscompress_end_to_end hv h (columnsGiven_ne items) hf hc hsmall
  refine ⟨t', hrun, rows, q, hreg, hq, fun hq1 hants hfit => ?_⟩
  obtain ⟨m, e1, hs, -, H⟩ := H hq1 hants hfit
  refine ⟨m, e1, hm m hs, ?_⟩
  intro sq libs fuel e0 d0 e gd hsq hen hd hfine P hP prog hprog k w hw hcl nRow' m0 hsh
  obtain ⟨-, -, H⟩ := H hsq hen hd hfine hP hprog hw
  obtain ⟨r, man, a1, a2, a3, -⟩ := H hcl nRow' m0 hsh
  exact ⟨r, man, a1, a2, hm man (a3.trans hs)⟩

/-! ## Examples -/

/-- `dscompress -data-bit-rate 10 -uniform -data-bit-rate " 04x" -rfnormalization ms`: four bits. -/
example (over : Arg → Int) (atof : Arg → Nat) :
    ∃ o, parse (conv over atof) (["-data-bit-rate", "10", "-uniform", "-data-bit-rate", " 04x", "-rfnormalization", "ms"].map
        String.toList) = .run o "ms".toList ∧ o.columns = ["DATA".toList] ∧ o.bitsPerFloat = 4 ∧ o.bitsPerWeight = 12 ∧
      ∃ m, createColumns o 10 4 64 o.columns = (m, true) ∧ m.dataBitCount = 4 ∧ m.weightBitCount = 12 ∧
        m.distribution = 1 ∧ m.normalization = 1 := by
  obtain ⟨o, e1, e2, e3, e4, e5⟩ := command_settings over atof
    [.dataBits "10".toList, .uniform, .dataBits " 04x".toList, .rf] "ms".toList [] (by unfold IsOption; decide)
  have b1 : o.bitsPerFloat = 4 := e3.1 4 (by decide) ⟨[' '], ['x'], 1, by decide, by decide, by simp⟩
  have b2 : o.bitsPerWeight = 12 := e4
  obtain ⟨m, f1, f2⟩ := (e5 10 4 64).2 (by omega) (by omega)
  exact ⟨o, e1, e2, b1, b2, m, f1, f2.data.1 4 (by decide) ⟨[' '], ['x'], 1, by decide, by decide, by simp⟩,
    f2.weight, f2.distribution, f2.normalization⟩

/-- `-data-bit-rate x` is refused when the column is made; `-data-bit-rate -1` stands for 4294967295 bits. -/
example (over : Arg → Int) (atof : Arg → Nat) :
    (∃ o, parse (conv over atof) (["-data-bit-rate", "x", "ms"].map String.toList) = .run o "ms".toList ∧
      (createColumns o 10 4 64 o.columns).2 = false) ∧
    ∃ o, parse (conv over atof) (["-data-bit-rate", "-1", "ms"].map String.toList) = .run o "ms".toList ∧
      o.bitsPerFloat = 4294967295 := by
  constructor
  · obtain ⟨o, e1, -, e3, -, e5⟩ := command_settings over atof [.dataBits "x".toList] "ms".toList [] (by unfold IsOption; decide)
    exact ⟨o, e1, (e5 10 4 64).1 (.inl (e3.2.1 ⟨[], ['x'], by decide, by decide, by simp; decide⟩))⟩
  · obtain ⟨o, e1, -, e3, -⟩ := command_settings over atof [.dataBits "-1".toList] "ms".toList [] (by unfold IsOption; decide)
    exact ⟨o, e1, e3.2.2 1 (by decide) (by decide) ⟨[], [], 0, by decide, by decide, by simp⟩⟩

end Dysco.Compress
