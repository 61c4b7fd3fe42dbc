import Verif.CompressMain

/-!
# C137: the settings that dscompress prints are the settings that it uses

Before it opens the measurement set, dscompress prints the bit counts, the distribution and the normalisation
(dscompress.cc:184-221). The text of a `double` is left open, except that it has no line break.
-/

namespace Dysco.Compress
open Tools StMan

/-! ## Model -/

/-- A `switch` over the distribution, dscompress.cc:190-206. `sigma` is the text of the truncation. -/
def distributionText (sigma : List Char) : Distribution → List Char
  | .uniform => "Uniform".toList
  | .gaussian => "Gaussian".toList
  | .truncatedGaussian => "Truncated Gaussian with sigma=".toList ++ sigma
  | .studentsT => "Student T".toList

/-- A `switch` over the normalisation, dscompress.cc:209-222. -/
def normalizationText : Normalization → List Char
  | .af => "AF".toList
  | .rf => "RF".toList
  | .row => "Row".toList

/-- What is written to `std::cout`, dscompress.cc:184-223. An `unsigned` is written in decimal digits; `text` gives the text
of a `double`. -/
def report {F : Type} (text : F → List Char) (o : Options Nat F) : List Char :=
  "\tbits per data val = ".toList ++ (Nat.toDigits 10 o.bitsPerFloat ++
  ("\n\tbits per weight = ".toList ++ (Nat.toDigits 10 o.bitsPerWeight ++
  ("\n\tdistribution = ".toList ++ (distributionText (text o.truncation) o.distribution ++
  ("\n\tnormalization = ".toList ++ (normalizationText o.normalization ++ "\n\n".toList)))))))

/-! ## Lines -/

theorem line_split {a a' b b' : List Char} (h : '\n' ∉ a) (h' : '\n' ∉ a') (e : a ++ '\n' :: b = a' ++ '\n' :: b') :
    a = a' ∧ b = b' := by
  induction a generalizing a' with
  | nil =>
    cases a' with
    | nil => exact ⟨rfl, by simpa using e⟩
    | cons c a' =>
      simp only [List.nil_append, List.cons_append, List.cons.injEq] at e
      exact absurd (by simp [← e.1]) h'
  | cons c a ih =>
    cases a' with
    | nil =>
      simp only [List.nil_append, List.cons_append, List.cons.injEq] at e
      exact absurd (by simp [e.1]) h
    | cons c' a' =>
      simp only [List.cons_append, List.cons.injEq] at e
      obtain ⟨rfl, e⟩ := e
      obtain ⟨rfl, rfl⟩ := ih (fun x => h (by simp [x])) (fun x => h' (by simp [x])) e
      exact ⟨rfl, rfl⟩

theorem digits_no_line (n : Nat) : '\n' ∉ Nat.toDigits 10 n := by
  intro h
  have := Nat.isDigit_of_mem_toDigits (b := 10) (n := n) (by decide) (by decide) h
  exact absurd this (by decide)

theorem digits_inj {n m : Nat} (h : Nat.toDigits 10 n = Nat.toDigits 10 m) : n = m := by
  have h1 := readDigits_number 0 n [] (by simp)
  have h2 := readDigits_number 0 m [] (by simp)
  rw [← h1, ← h2, h]

theorem distribution_head (s : List Char) (d : Distribution) : (distributionText s d).head? =
    some (match d with | .gaussian => 'G' | .uniform => 'U' | .studentsT => 'S' | .truncatedGaussian => 'T') := by
  cases d with
  | gaussian => exact (by decide +kernel : "Gaussian".toList.head? = some 'G')
  | uniform => exact (by decide +kernel : "Uniform".toList.head? = some 'U')
  | studentsT => exact (by decide +kernel : "Student T".toList.head? = some 'S')
  | truncatedGaussian =>
    have h : "Truncated Gaussian with sigma=".toList.head? = some 'T' := by decide +kernel
    unfold distributionText
    rw [List.head?_append, h]
    rfl

theorem distribution_inj {s s' : List Char} {d d' : Distribution} (h : distributionText s d = distributionText s' d') :
    d = d' := by
  have h := congrArg List.head? h
  rw [distribution_head, distribution_head] at h
  cases d <;> cases d' <;> first | rfl | exact absurd h (by decide)

theorem normalization_inj {d d' : Normalization} (h : normalizationText d = normalizationText d') : d = d' := by
  have hk : ∀ d, (normalizationText d).take 2 = match d with | .af => ['A', 'F'] | .rf => ['R', 'F'] | .row => ['R', 'o'] := by
    intro d
    cases d <;> decide +kernel
  have h := congrArg (List.take 2) h
  rw [hk, hk] at h
  cases d <;> cases d' <;> first | rfl | exact absurd h (by decide)

/-- **C137** Two runs that print the same use the same bit counts, distribution and normalisation; if the distribution is the
truncated Gaussian, their truncations have the same text. -/
theorem report_determines {F : Type} {text : F → List Char} (ht : ∀ x, '\n' ∉ text x) {o o' : Options Nat F}
    (h : report text o = report text o') :
    o.bitsPerFloat = o'.bitsPerFloat ∧ o.bitsPerWeight = o'.bitsPerWeight ∧ o.distribution = o'.distribution ∧
      o.normalization = o'.normalization ∧
      (o.distribution = .truncatedGaussian → text o.truncation = text o'.truncation) := by
  have e1 : "\n\tbits per weight = ".toList = '\n' :: "\tbits per weight = ".toList := by decide +kernel
  have e2 : "\n\tdistribution = ".toList = '\n' :: "\tdistribution = ".toList := by decide +kernel
  have e3 : "\n\tnormalization = ".toList = '\n' :: "\tnormalization = ".toList := by decide +kernel
  have e4 : "\n\n".toList = '\n' :: ['\n'] := by decide +kernel
  unfold report at h
  rw [e1, e2, e3, e4] at h
  simp only [List.cons_append] at h
  have h := List.append_cancel_left h
  obtain ⟨h1, h⟩ := line_split (digits_no_line _) (digits_no_line _) h
  have h := List.append_cancel_left h
  obtain ⟨h2, h⟩ := line_split (digits_no_line _) (digits_no_line _) h
  have h := List.append_cancel_left h
  have hd : ∀ x d, '\n' ∉ distributionText (text x) d := by
    intro x d
    cases d with
    | gaussian => exact (by decide +kernel : '\n' ∉ "Gaussian".toList)
    | uniform => exact (by decide +kernel : '\n' ∉ "Uniform".toList)
    | studentsT => exact (by decide +kernel : '\n' ∉ "Student T".toList)
    | truncatedGaussian =>
      have h1 : '\n' ∉ "Truncated Gaussian with sigma=".toList := by decide +kernel
      exact fun h => (List.mem_append.1 h).elim h1 (ht x)
  have hn : ∀ d, '\n' ∉ normalizationText d := by
    intro d
    cases d <;> decide +kernel
  obtain ⟨h3, h⟩ := line_split (hd _ _) (hd _ _) h
  have h := List.append_cancel_left h
  obtain ⟨h4, -⟩ := line_split (hn _) (hn _) h
  refine ⟨digits_inj h1, digits_inj h2, ?_, ?_, ?_⟩
  · exact distribution_inj h3
  · exact normalization_inj h4
  · intro e
    have e' := distribution_inj h3
    rw [← e', e] at h3
    exact List.append_cancel_left h3

/-- The text that describes the settings of a manager, with the numbers of `DyscoDistribution` (dyscodistribution.h:6-11) and
`Normalization` (dysconormalization.h:6). Not in the code. -/
def describes {F : Type} (text : F → List Char) (truncation : F) (data weight distribution normalization : Nat) :
    List Char :=
  "\tbits per data val = ".toList ++ (Nat.toDigits 10 data ++
  ("\n\tbits per weight = ".toList ++ (Nat.toDigits 10 weight ++
  ("\n\tdistribution = ".toList ++
    ((match distribution with
      | 0 => "Gaussian".toList
      | 1 => "Uniform".toList
      | 2 => "Student T".toList
      | _ => "Truncated Gaussian with sigma=".toList ++ text truncation) ++
  ("\n\tnormalization = ".toList ++
    ((match normalization with
      | 0 => "AF".toList
      | 1 => "RF".toList
      | _ => "Row".toList) ++ "\n\n".toList)))))))

/-- **C137** The text describes the manager that is made. -/
theorem report_of_manager (text : Nat → List Char) (o : Options Nat Nat) (nRow nPol nCh : Nat) {columns : List Arg}
    (hc : columns ≠ []) {m : Man} (h : createColumns o nRow nPol nCh columns = (m, true)) :
    report text o =
      describes text m.distributionTruncation m.dataBitCount m.weightBitCount m.distribution m.normalization := by
  have hz : ¬ (o.bitsPerFloat = 0 ∨ o.bitsPerWeight = 0) := fun hz => by
    have := createColumns_zero hz nRow nPol nCh hc
    rw [h] at this
    cases this
  push Not at hz
  obtain ⟨m', e, hs, -⟩ := createColumns_spec o hz.1 hz.2 nRow nPol nCh hc
  obtain rfl : m = m' := by
    rw [h] at e
    exact (Prod.mk.inj e).1
  obtain ⟨-, -, f3, f4, f5, f6, -, f8, -⟩ := manager_fields o
  rw [hs.data, hs.weight, hs.distribution, hs.normalization, hs.truncation, f3, f4, f5, f6, f8]
  unfold report describes
  cases hd : o.distribution <;> cases o.normalization <;> rfl

/-! ## Examples -/

/-- What the default settings print, with `2.5` for the truncation. -/
example : report (fun _ => "2.5".toList) (defaults (conv (fun _ => 0) (fun _ => 0))) =
    ("\tbits per data val = 8\n\tbits per weight = 12\n\tdistribution = Truncated Gaussian with sigma=2.5\n" ++
      "\tnormalization = AF\n\n").toList := by
  decide +kernel

/-- The same text with another truncation behind it: nothing but the text of the truncation is known. -/
example : ∃ o o' : Options Nat Nat, report (fun x => Nat.toDigits 10 (x / 10)) o = report (fun x => Nat.toDigits 10 (x / 10)) o' ∧
    o.truncation ≠ o'.truncation ∧ o.columns ≠ o'.columns ∧ o.bitsPerFloat = o'.bitsPerFloat := by
  have h : report (fun x => Nat.toDigits 10 (x / 10)) ⟨.truncatedGaussian, .rf, false, 10, 12, 25, false, []⟩ =
      report (fun x => Nat.toDigits 10 (x / 10)) ⟨.truncatedGaussian, .rf, false, 10, 12, 26, false, [['A']]⟩ := by
    decide +kernel
  exact ⟨_, _, h, by decide, by decide, (report_determines (fun x => digits_no_line _) h).1⟩

/-- A manager for 300 rows, four polarisations and 16 channels. -/
example (text : Nat → List Char) : ∃ m, createColumns ⟨.uniform, .row, false, 6, 8, 0, false, []⟩ 300 4 16 [['A'], ['B']] = (m, true) ∧
    describes text m.distributionTruncation m.dataBitCount m.weightBitCount m.distribution m.normalization =
      describes text 0 6 8 1 2 := by
  obtain ⟨m, e, -⟩ := createColumns_spec ⟨.uniform, .row, false, 6, 8, 0, false, []⟩ (by decide) (by decide) 300 4 16
    (columns := [['A'], ['B']]) (by decide)
  exact ⟨m, e, (report_of_manager text _ 300 4 16 (by decide) e).symm.trans rfl⟩

end Dysco.Compress
