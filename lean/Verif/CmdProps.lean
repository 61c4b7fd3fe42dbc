import Verif.ToolsModel
import Mathlib.Tactic.Set

/-!
# The command line and the replacement of flagged samples: C54, C55
-/

namespace Dysco.Tools

/-- A complete option on the command line. -/
inductive Item where
  | dataBits (v : Arg) | weightBits (v : Arg) | reorder | gaussian | uniform | studentt | truncgaus (v : Arg)
  | column (v : Arg) | rf | af | row | staticSeed

/-- How the option is written. -/
def Item.render : Item → List Arg
  | .dataBits v => ["-data-bit-rate".toList, v]
  | .weightBits v => ["-weight-bit-rate".toList, v]
  | .reorder => ["-reorder".toList]
  | .gaussian => ["-gaussian".toList]
  | .uniform => ["-uniform".toList]
  | .studentt => ["-studentt".toList]
  | .truncgaus v => ["-truncgaus".toList, v]
  | .column v => ["-column".toList, v]
  | .rf => ["-rfnormalization".toList]
  | .af => ["-afnormalization".toList]
  | .row => ["-rownormalization".toList]
  | .staticSeed => ["-static-seed".toList]

/-- The options that need a value. -/
def needValue : List Arg :=
  ["-data-bit-rate".toList, "-weight-bit-rate".toList, "-truncgaus".toList, "-column".toList]

/-- All option names. -/
def known : List Arg := needValue ++
  ["-reorder".toList, "-gaussian".toList, "-uniform".toList, "-studentt".toList, "-rfnormalization".toList,
    "-afnormalization".toList, "-rownormalization".toList, "-static-seed".toList]

/-! What an option says about each setting. -/

/-- The number of bits per data value. Not in the code. -/
def Item.dataBits? : Item → Option Arg
  | .dataBits v => some v
  | _ => none

/-- The number of bits per weight. Not in the code. -/
def Item.weightBits? : Item → Option Arg
  | .weightBits v => some v
  | _ => none

/-- The truncation. Not in the code. -/
def Item.truncation? : Item → Option Arg
  | .truncgaus v => some v
  | _ => none

/-- The name of a column. Not in the code. -/
def Item.column? : Item → Option Arg
  | .column v => some v
  | _ => none

/-- The distribution. Not in the code. -/
def Item.distribution? : Item → Option Distribution
  | .gaussian => some .gaussian
  | .uniform => some .uniform
  | .studentt => some .studentsT
  | .truncgaus _ => some .truncatedGaussian
  | _ => none

/-- The normalisation. Not in the code. -/
def Item.normalization? : Item → Option Normalization
  | .rf => some .rf
  | .af => some .af
  | .row => some .row
  | _ => none

/-- The option is `-reorder`. Not in the code. -/
def Item.isReorder : Item → Bool
  | .reorder => true
  | _ => false

/-- The option is `-static-seed`. Not in the code. -/
def Item.isStaticSeed : Item → Bool
  | .staticSeed => true
  | _ => false

variable {N F : Type}

/-- The last of the given values, or else a default. -/
def lastOr {A : Type} (l : List A) (d : A) : A := l.getLast?.getD d

/-- The settings that a list of options stands for: the last value of each wins, columns accumulate. -/
def settings (c : Conv N F) (items : List Item) (o : Options N F) : Options N F :=
  { distribution := lastOr (items.filterMap Item.distribution?) o.distribution
    normalization := lastOr (items.filterMap Item.normalization?) o.normalization
    reorder := o.reorder || items.any Item.isReorder
    bitsPerFloat := lastOr ((items.filterMap Item.dataBits?).map c.atoi) o.bitsPerFloat
    bitsPerWeight := lastOr ((items.filterMap Item.weightBits?).map c.atoi) o.bitsPerWeight
    truncation := lastOr ((items.filterMap Item.truncation?).map c.atof) o.truncation
    staticSeed := o.staticSeed || items.any Item.isStaticSeed
    columns := o.columns ++ items.filterMap Item.column? }

/-- DATA is compressed when no column is given. -/
def withDefaultColumn (o : Options N F) : Options N F :=
  if o.columns = [] then { o with columns := ["DATA".toList] } else o

theorem lastOr_cons {A : Type} (a : A) (l : List A) (d : A) : lastOr (a :: l) d = lastOr l a := by
  cases l <;> simp [lastOr, List.getLast?_cons]

theorem lastOr_nil {A : Type} (d : A) : lastOr ([] : List A) d = d := rfl

/-- One option of the loop. -/
theorem parseLoop_dash (c : Conv N F) (p : Arg) (rest : List Arg) (o : Options N F) :
    parseLoop c (('-' :: p) :: rest) o =
      if p = "data-bit-rate".toList then
        match rest with
        | [] => .ub
        | v :: rest => parseLoop c rest { o with bitsPerFloat := c.atoi v }
      else if p = "weight-bit-rate".toList then
        match rest with
        | [] => .ub
        | v :: rest => parseLoop c rest { o with bitsPerWeight := c.atoi v }
      else if p = "reorder".toList then parseLoop c rest { o with reorder := true }
      else if p = "gaussian".toList then parseLoop c rest { o with distribution := .gaussian }
      else if p = "uniform".toList then parseLoop c rest { o with distribution := .uniform }
      else if p = "studentt".toList then parseLoop c rest { o with distribution := .studentsT }
      else if p = "truncgaus".toList then
        match rest with
        | [] => .ub
        | v :: rest => parseLoop c rest { o with distribution := .truncatedGaussian, truncation := c.atof v }
      else if p = "column".toList then
        match rest with
        | [] => .ub
        | v :: rest => parseLoop c rest { o with columns := o.columns ++ [v] }
      else if p = "rfnormalization".toList then parseLoop c rest { o with normalization := .rf }
      else if p = "afnormalization".toList then parseLoop c rest { o with normalization := .af }
      else if p = "rownormalization".toList then parseLoop c rest { o with normalization := .row }
      else if p = "static-seed".toList then parseLoop c rest { o with staticSeed := true }
      else .invalid ('-' :: p) := by
  conv_lhs => unfold parseLoop
  rfl

theorem parseLoop_item (c : Conv N F) (i : Item) (rest : List Arg) (o : Options N F) :
    parseLoop c (i.render ++ rest) o = parseLoop c rest (settings c [i] o) := by
  cases i <;>
    simp [Item.render, parseLoop_dash, settings, lastOr, List.filterMap_cons, Item.dataBits?, Item.weightBits?, Item.truncation?, Item.column?,
      Item.distribution?, Item.normalization?, Item.isReorder, Item.isStaticSeed]

theorem settings_cons (c : Conv N F) (i : Item) (items : List Item) (o : Options N F) :
    settings c (i :: items) o = settings c items (settings c [i] o) := by
  cases i <;>
    simp [settings, lastOr_cons, lastOr_nil, List.filterMap_cons, Item.dataBits?, Item.weightBits?, Item.truncation?, Item.column?,
      Item.distribution?, Item.normalization?, Item.isReorder, Item.isStaticSeed]

/-- A list of complete options is processed from left to right. -/
theorem parseLoop_items (c : Conv N F) (items : List Item) (rest : List Arg) (o : Options N F) :
    parseLoop c (items.flatMap Item.render ++ rest) o = parseLoop c rest (settings c items o) := by
  induction items generalizing o with
  | nil => simp [settings, lastOr]
  | cons i items ih =>
    rw [List.flatMap_cons, List.append_assoc, parseLoop_item, ih, ← settings_cons]

/-- An argument that begins with a dash. -/
def IsOption (a : Arg) : Prop := a.head? = some '-'

theorem parse_nonempty (c : Conv N F) (args : List Arg) (h : args ≠ []) : parse c args = parseLoop c args (defaults c) := by
  rw [parse, if_neg h]

/-- C54: options followed by a path: each setting has the last given value or its default, DATA is the default column, and
what follows the path is ignored. -/
theorem parse_run (c : Conv N F) (items : List Item) (path : Arg) (rest : List Arg) (hp : ¬ IsOption path) :
    parse c (items.flatMap Item.render ++ path :: rest) =
      .run (withDefaultColumn (settings c items (defaults c))) path := by
  rw [parse_nonempty _ _ (by simp), parseLoop_items]
  cases path with
  | nil => simp [parseLoop, withDefaultColumn]
  | cons ch p =>
    have : ch ≠ '-' := by
      intro e; exact hp (by simp [IsOption, e])
    simp [parseLoop, this, withDefaultColumn]

/-- C54: an unknown option is refused, whatever follows. -/
theorem parse_invalid (c : Conv N F) (items : List Item) (a : Arg) (rest : List Arg) (ha : IsOption a)
    (hk : a ∉ known) : parse c (items.flatMap Item.render ++ a :: rest) = .invalid a := by
  rw [parse_nonempty _ _ (by simp), parseLoop_items]
  cases a with
  | nil => simp [IsOption] at ha
  | cons ch p =>
    have : ch = '-' := by simpa [IsOption] using ha
    subst this
    have hne : ∀ q : Arg, '-' :: q ∈ known → p ≠ q := fun q hq e => hk (e ▸ hq)
    have h1 : p ≠ "data-bit-rate".toList := hne _ (by simp [known, needValue])
    have h2 : p ≠ "weight-bit-rate".toList := hne _ (by simp [known, needValue])
    have h3 : p ≠ "truncgaus".toList := hne _ (by simp [known, needValue])
    have h4 : p ≠ "column".toList := hne _ (by simp [known, needValue])
    have h5 : p ≠ "reorder".toList := hne _ (by simp [known, needValue])
    have h6 : p ≠ "gaussian".toList := hne _ (by simp [known, needValue])
    have h7 : p ≠ "uniform".toList := hne _ (by simp [known, needValue])
    have h8 : p ≠ "studentt".toList := hne _ (by simp [known, needValue])
    have h9 : p ≠ "rfnormalization".toList := hne _ (by simp [known, needValue])
    have h10 : p ≠ "afnormalization".toList := hne _ (by simp [known, needValue])
    have h11 : p ≠ "rownormalization".toList := hne _ (by simp [known, needValue])
    have h12 : p ≠ "static-seed".toList := hne _ (by simp [known, needValue])
    rw [parseLoop_dash, if_neg h1, if_neg h2, if_neg h5, if_neg h6, if_neg h7, if_neg h8, if_neg h3, if_neg h4,
      if_neg h9, if_neg h10, if_neg h11, if_neg h12]

/-- C54: with no path after the options the end of the argument list is used as a string. -/
theorem parse_no_path (c : Conv N F) (items : List Item) (h : items ≠ []) :
    parse c (items.flatMap Item.render) = .ub := by
  have hne : items.flatMap Item.render ≠ [] := by
    obtain ⟨i, l, rfl⟩ := List.exists_cons_of_ne_nil h
    cases i <;> simp [Item.render]
  rw [parse_nonempty _ _ hne]
  have := parseLoop_items c items [] (defaults c)
  rw [List.append_nil] at this
  rw [this]
  rfl

/-- C54: with an option that needs a value at the end, likewise. -/
theorem parse_no_value (c : Conv N F) (items : List Item) (a : Arg) (ha : a ∈ needValue) :
    parse c (items.flatMap Item.render ++ [a]) = .ub := by
  rw [parse_nonempty _ _ (by simp), parseLoop_items]
  simp [needValue] at ha
  rcases ha with rfl | rfl | rfl | rfl <;> simp [parseLoop]

/-- C54: the four cases above and the empty command line are all there is. -/
theorem args_cases (args : List Arg) :
    (∃ (items : List Item) (path : Arg) (rest : List Arg), args = items.flatMap Item.render ++ path :: rest ∧ ¬ IsOption path) ∨
    (∃ (items : List Item) (a : Arg) (rest : List Arg), args = items.flatMap Item.render ++ a :: rest ∧ IsOption a ∧ a ∉ known) ∨
    (∃ items : List Item, args = items.flatMap Item.render) ∨
    (∃ (items : List Item) (a : Arg), args = items.flatMap Item.render ++ [a] ∧ a ∈ needValue) := by
  suffices H : ∀ n (args : List Arg), args.length ≤ n →
      (∃ (items : List Item) (path : Arg) (rest : List Arg), args = items.flatMap Item.render ++ path :: rest ∧ ¬ IsOption path) ∨
      (∃ (items : List Item) (a : Arg) (rest : List Arg), args = items.flatMap Item.render ++ a :: rest ∧ IsOption a ∧ a ∉ known) ∨
      (∃ items : List Item, args = items.flatMap Item.render) ∨
      (∃ (items : List Item) (a : Arg), args = items.flatMap Item.render ++ [a] ∧ a ∈ needValue) from H _ args (Nat.le_refl _)
  intro n
  induction n with
  | zero =>
    intro args h
    have : args = [] := List.length_eq_zero_iff.1 (by omega)
    exact Or.inr (Or.inr (Or.inl ⟨[], by simp [this]⟩))
  | succ n ih =>
    intro args h
    cases args with
    | nil => exact Or.inr (Or.inr (Or.inl ⟨[], rfl⟩))
    | cons a rest =>
      have prep : ∀ (i : Item) (tail : List Arg), a :: rest = i.render ++ tail → tail.length ≤ n →
          (∃ (items : List Item) (path : Arg) (rest' : List Arg), a :: rest = items.flatMap Item.render ++ path :: rest' ∧ ¬ IsOption path) ∨
          (∃ (items : List Item) (a' : Arg) (rest' : List Arg), a :: rest = items.flatMap Item.render ++ a' :: rest' ∧ IsOption a' ∧ a' ∉ known) ∨
          (∃ items : List Item, a :: rest = items.flatMap Item.render) ∨
          (∃ (items : List Item) (a' : Arg), a :: rest = items.flatMap Item.render ++ [a'] ∧ a' ∈ needValue) := by
        intro i tail e hl
        rcases ih tail hl with ⟨it, x, y, e', h'⟩ | ⟨it, x, y, e', h'⟩ | ⟨it, e'⟩ | ⟨it, x, e', h'⟩
        · exact Or.inl ⟨i :: it, x, y, by rw [e, e', List.flatMap_cons, List.append_assoc], h'⟩
        · exact Or.inr (Or.inl ⟨i :: it, x, y, by rw [e, e', List.flatMap_cons, List.append_assoc], h'⟩)
        · exact Or.inr (Or.inr (Or.inl ⟨i :: it, by rw [e, e', List.flatMap_cons]⟩))
        · exact Or.inr (Or.inr (Or.inr ⟨i :: it, x, by rw [e, e', List.flatMap_cons, List.append_assoc], h'⟩))
      have hr : rest.length ≤ n := by simpa using h
      by_cases ho : IsOption a
      · by_cases hk : a ∈ known
        · by_cases hv : a ∈ needValue
          · cases rest with
            | nil => exact Or.inr (Or.inr (Or.inr ⟨[], a, rfl, hv⟩))
            | cons v tail =>
              have ht : tail.length ≤ n := by simp at hr; omega
              simp only [needValue, List.mem_cons, List.not_mem_nil, or_false] at hv
              rcases hv with e | e | e | e
              · exact prep (.dataBits v) tail (by rw [e]; rfl) ht
              · exact prep (.weightBits v) tail (by rw [e]; rfl) ht
              · exact prep (.truncgaus v) tail (by rw [e]; rfl) ht
              · exact prep (.column v) tail (by rw [e]; rfl) ht
          · rw [known, List.mem_append] at hk
            have hk := hk.resolve_left hv
            simp only [List.mem_cons, List.not_mem_nil, or_false] at hk
            rcases hk with e | e | e | e | e | e | e | e
            · exact prep .reorder rest (by rw [e]; rfl) hr
            · exact prep .gaussian rest (by rw [e]; rfl) hr
            · exact prep .uniform rest (by rw [e]; rfl) hr
            · exact prep .studentt rest (by rw [e]; rfl) hr
            · exact prep .rf rest (by rw [e]; rfl) hr
            · exact prep .af rest (by rw [e]; rfl) hr
            · exact prep .row rest (by rw [e]; rfl) hr
            · exact prep .staticSeed rest (by rw [e]; rfl) hr
        · exact Or.inr (Or.inl ⟨[], a, rest, rfl, ho, hk⟩)
      · exact Or.inl ⟨[], a, rest, rfl, ho⟩

/-- C54: usage is shown exactly when there are no arguments. -/
theorem parse_usage_iff (c : Conv N F) (args : List Arg) : parse c args = .usage ↔ args = [] := by
  constructor
  · intro h
    rcases args_cases args with ⟨it, x, y, rfl, h'⟩ | ⟨it, x, y, rfl, h1, h2⟩ | ⟨it, rfl⟩ | ⟨it, x, rfl, h'⟩
    · rw [parse_run c it x y h'] at h; cases h
    · rw [parse_invalid c it x y h1 h2] at h; cases h
    · by_cases hn : it = []
      · rw [hn]; rfl
      · rw [parse_no_path c it hn] at h; cases h
    · rw [parse_no_value c it x h'] at h; cases h
  · rintro rfl; rfl

/-- `dscompress -uniform -data-bit-rate 4 -column A -data-bit-rate 10 -column B ms`. -/
example (c : Conv Nat Nat) : parse c (["-uniform", "-data-bit-rate", "4", "-column", "A", "-data-bit-rate", "10",
      "-column", "B", "ms"].map String.toList) =
    .run ⟨.uniform, .af, false, c.atoi "10".toList, c.weightBits, c.sigma, false, ["A".toList, "B".toList]⟩
      "ms".toList :=
  parse_run c [.uniform, .dataBits "4".toList, .column "A".toList, .dataBits "10".toList, .column "B".toList]
    "ms".toList [] (by simp [IsOption])

example : ¬ IsOption "ms".toList ∧ IsOption "-x".toList ∧ "-x".toList ∉ known := by
  simp [IsOption, known, needValue]

/-! ## C55 -/

/-- One row: exactly the flagged samples are replaced; the change flag says whether there was one. -/
theorem nanRow_spec {V : Type} (nan : V) : ∀ (d : List V) (f : List Bool), d.length ≤ f.length →
    ∃ r, nanRow nan d f = some (r, (f.take d.length).any id) ∧ r.length = d.length ∧
      ∀ i : Nat, r[i]? = if f[i]? = some true then d[i]?.map fun _ => nan else d[i]? := by
  intro d
  induction d with
  | nil => intro f _; exact ⟨[], by simp [nanRow], rfl, by simp⟩
  | cons x d ih =>
    intro f h
    cases f with
    | nil => simp at h
    | cons b f =>
      obtain ⟨r, e, hl, hr⟩ := ih f (by simpa using h)
      cases b
      · refine ⟨x :: r, by simp [nanRow, e], by simp [hl], fun i => ?_⟩
        cases i with
        | zero => simp
        | succ i => simpa using hr i
      · refine ⟨nan :: r, by simp [nanRow, e], by simp [hl], fun i => ?_⟩
        cases i with
        | zero => simp
        | succ i => simpa using hr i

/-- With fewer flags than samples, the flags are read past their end. -/
theorem nanRow_short {V : Type} (nan : V) : ∀ (d : List V) (f : List Bool), f.length < d.length →
    nanRow nan d f = none := by
  intro d
  induction d with
  | nil => intro f h; simp at h
  | cons x d ih =>
    intro f h
    cases f with
    | nil => rfl
    | cons b f => simp [nanRow, ih f (by simpa using h)]

/-- C55: after the loop over the rows exactly the flagged samples are NaN, the others are as before, and the rows that
were written are exactly those with a flagged sample, each once. -/
theorem nanRows_spec {V : Type} (nan : V) (flags : Nat → List Bool) (col : Nat → List V) (n : Nat)
    (h : ∀ k, k < n → (col k).length ≤ (flags k).length) :
    ∃ col' puts, nanRows nan flags n col = some (col', puts) ∧
      (∀ k i : Nat, (col' k)[i]? = if k < n ∧ (flags k)[i]? = some true then (col k)[i]?.map fun _ => nan else (col k)[i]?) ∧
      puts = (List.range n).filter fun k => ((flags k).take (col k).length).any id := by
  induction n with
  | zero => exact ⟨col, [], rfl, by simp, rfl⟩
  | succ n ih =>
    obtain ⟨col', puts, e, h1, h2⟩ := ih fun k hk => h k (by omega)
    have hn : col' n = col n := by
      apply List.ext_getElem?
      intro i
      rw [h1]; simp
    obtain ⟨r, er, hl, hr⟩ := nanRow_spec nan (col n) (flags n) (h n (by omega))
    rw [nanRows, e, Option.bind_some]
    simp only [hn, er, Option.map_some]
    rw [List.range_succ, List.filter_append, ← h2]
    by_cases hc : ((flags n).take (col n).length).any id = true
    · rw [if_pos hc]
      refine ⟨_, _, rfl, fun k i => ?_, by simp [hc]⟩
      by_cases hk : k = n
      · subst hk
        simp only [if_true]
        rw [hr i]
        simp
      · simp only [if_neg hk]
        rw [h1]
        have : k < n + 1 ↔ k < n := by omega
        simp only [this]
    · rw [if_neg hc]
      refine ⟨_, _, rfl, fun k i => ?_, by simp [hc]⟩
      rw [h1]
      by_cases hk : k = n
      · subst hk
        simp only [Nat.lt_irrefl, false_and, if_false, Nat.lt_succ_self, true_and]
        split
        · rename_i hf
          by_cases hi : i < (col k).length
          · exfalso
            apply hc
            rw [List.any_eq_true]
            refine ⟨true, ?_, rfl⟩
            rw [List.mem_iff_getElem?]
            exact ⟨i, by rw [List.getElem?_take_of_lt hi, hf]⟩
          · rw [List.getElem?_eq_none (by omega)]; rfl
        · rfl
      · have : k < n + 1 ↔ k < n := by omega
        simp only [this]

/-- C55: a flag array that is shorter than the data of some row is read past its end. -/
theorem nanRows_short {V : Type} (nan : V) (flags : Nat → List Bool) (col : Nat → List V) (n k : Nat) (hk : k < n)
    (h : (flags k).length < (col k).length) : nanRows nan flags n col = none := by
  induction n with
  | zero => omega
  | succ n ih =>
    by_cases hkn : k < n
    · rw [nanRows, ih hkn]; rfl
    · have : k = n := by omega
      subst this
      by_cases hall : ∀ j, j < k → (col j).length ≤ (flags j).length
      · obtain ⟨col', puts, e, h1, -⟩ := nanRows_spec nan flags col k hall
        have hn : col' k = col k := by
          apply List.ext_getElem?
          intro i
          rw [h1]; simp
        rw [nanRows, e, Option.bind_some]
        simp only [hn, nanRow_short nan _ _ h]
        rfl
      · clear ih
        rw [nanRows]
        have : nanRows nan flags k col = none := by
          clear hk h hkn
          induction k with
          | zero => exact absurd (fun j hj => absurd hj (Nat.not_lt_zero j)) hall
          | succ k ih =>
            by_cases hb : ∀ j, j < k → (col j).length ≤ (flags j).length
            · obtain ⟨col', puts, e, h1, -⟩ := nanRows_spec nan flags col k hb
              have hn : col' k = col k := by
                apply List.ext_getElem?
                intro i
                rw [h1]; simp
              have hlt : (flags k).length < (col k).length := by
                by_contra hge
                refine hall fun j hj => ?_
                by_cases hjk : j < k
                · exact hb j hjk
                · have : j = k := by omega
                  subst this; omega
              rw [nanRows, e, Option.bind_some]
              simp only [hn, nanRow_short nan _ _ hlt]
              rfl
            · rw [nanRows, ih hb]; rfl
        rw [this]; rfl

/-- Rows of two samples; row 1 has a flag. -/
example : (nanRows 99 (fun k => if k = 1 then [false, true] else [false, false]) 3 fun k => [k, k + 10]).map
    (fun x => (x.1 0, x.1 1, x.1 2, x.2)) = some ([0, 10], [1, 99], [2, 12], [1]) := by rfl

/-! The theorems on concrete arguments. -/

example (c : Conv Nat Nat) : parse c (["-data-bit-rate", "4", "-x", "ms"].map String.toList) = .invalid "-x".toList :=
  parse_invalid c [.dataBits "4".toList] "-x".toList ["ms".toList] (by simp [IsOption]) (by simp [known, needValue])

example (c : Conv Nat Nat) : parse c (["-column", "DATA"].map String.toList) = .ub :=
  parse_no_path c [.column "DATA".toList] (by simp)

example (c : Conv Nat Nat) : parse c (["-uniform", "-column"].map String.toList) = .ub :=
  parse_no_value c [.uniform] "-column".toList (by simp [needValue])

example (c : Conv Nat Nat) : parse c ["-uniform".toList] ≠ .usage :=
  fun h => by simpa using (parse_usage_iff c _).mp h

example : ∃ (items : List Item) (path : Arg) (rest : List Arg),
    ["-uniform".toList, "ms".toList] = items.flatMap Item.render ++ path :: rest ∧ ¬ IsOption path :=
  ⟨[.uniform], "ms".toList, [], rfl, by simp [IsOption]⟩

example : nanRows 99 (fun _ => [true]) 3 (fun k => [k, k + 10]) = none :=
  nanRows_short 99 _ _ 3 1 (by decide) (by decide)

example : ∃ col' puts, nanRows 99 (fun k => if k = 1 then [false, true] else [false, false]) 3 (fun k => [k, k + 10]) =
      some (col', puts) ∧ (col' 1)[1]? = some 99 ∧ (col' 1)[0]? = some 1 ∧ puts = [1] := by
  obtain ⟨col', puts, h, h1, h2⟩ := nanRows_spec 99 (fun k => if k = 1 then [false, true] else [false, false])
    (fun k => [k, k + 10]) 3 (fun k _ => by split <;> simp)
  exact ⟨col', puts, h, by rw [h1]; rfl, by rw [h1]; rfl, h2⟩

end Dysco.Tools
