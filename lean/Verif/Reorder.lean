import Verif.CompressModel
import Verif.StManProps
import Verif.TableProps

/-!
# C123: rewriting the measurement set, stmanmodifier.h:146-158

`Reorder` copies the table to a new one, deletes the old one and renames. The disk is a map from paths to tables. What
is assumed of casacore: `deepCopy` with `Table::New` removes a table that has the name of the copy, then makes the copy
or raises an exception, after which no complete table has that name; a table that is marked for deletion is deleted when
its object is destructed; `rename` moves the table. Paths are compared without slashes at the end.

A table is copied with its data managers: casacore makes a new manager from the record of the old one
(`dataManagerSpec`, `makeObject`), so the copy is refused when the record is.
-/

namespace Dysco.Tools
open StMan

/-- The tables by path. casacore; not in the code. -/
abbrev Disk (T : Type) := Arg → Option T

/-- How `Reorder` returns, stmanmodifier.h:146-158. -/
inductive Ended where
  | done
  | threw
  /-- `rbegin` of an empty string -/
  | undefined
deriving DecidableEq

/-- The path without slashes at its end. stmanmodifier.h:149-150. -/
def bare (path : Arg) : Option Arg := (stripSlashes path.reverse).map List.reverse

/-- `Reorder`, stmanmodifier.h:146-158: the disk after each step, and how it ended. `copy` is the copy of a table;
`none`: an exception. -/
def reorder {T : Type} (copy : T → Option T) (path : Arg) (d : Disk T) : List (Disk T) × Ended :=
  match reorderName path, bare path with
  | some temp, some ms =>
    match d ms with
    | none => ([d], .threw)
    | some t =>
      -- 152: the name is made free, then the copy is made
      let d1 : Disk T := Function.update d temp none
      match copy t with
      | none => ([d, d1], .threw)
      | some t' =>
        let d2 : Disk T := Function.update d1 temp (some t')
        -- 153-156: the copy is opened, and the old table is deleted with its object
        let d3 : Disk T := Function.update d2 ms none
        -- 157
        let d4 : Disk T := Function.update (Function.update d3 temp none) ms (some t')
        ([d, d1, d2, d3, d4], .done)
  | _, _ => ([d], .undefined)

theorem bare_spec (p : Arg) (c : Char) (hc : c ≠ '/') (k : Nat) :
    bare (p ++ [c] ++ List.replicate k '/') = some (p ++ [c]) := by
  have := reorderName_spec p c hc k
  unfold reorderName at this
  unfold bare
  cases h : stripSlashes (p ++ [c] ++ List.replicate k '/').reverse with
  | none => rw [h] at this; cases this
  | some x =>
    rw [h] at this
    injection this with this
    have := List.append_cancel_right this
    rw [Option.map_some, this]

/-- **C123** A table that can be copied, at every moment of `Reorder`, with any number of slashes at the end of the
path: the old table is under its path or the complete copy is under one of the two names, and no other path is touched.
At the end the copy is under the path and the temporary name is free. -/
theorem reorder_safe {T : Type} (copy : T → Option T) (p : Arg) (c : Char) (hc : c ≠ '/') (k : Nat) (d : Disk T)
    (t t' : T) (ht : d (p ++ [c]) = some t) (hcopy : copy t = some t') :
    (reorder copy (p ++ [c] ++ List.replicate k '/') d).2 = .done ∧
    (∀ d' ∈ (reorder copy (p ++ [c] ++ List.replicate k '/') d).1,
      (d' (p ++ [c]) = some t ∨ d' (p ++ [c]) = some t' ∨ d' (p ++ [c] ++ "temp".toList) = some t') ∧
      ∀ q, q ≠ p ++ [c] → q ≠ p ++ [c] ++ "temp".toList → d' q = d q) ∧
    ∃ d', (reorder copy (p ++ [c] ++ List.replicate k '/') d).1.getLast? = some d' ∧ d' (p ++ [c]) = some t' ∧
      d' (p ++ [c] ++ "temp".toList) = none := by
  have hne : p ++ [c] ≠ p ++ [c] ++ "temp".toList := by
    intro h
    have := congrArg List.length h
    simp at this
  have e : reorder copy (p ++ [c] ++ List.replicate k '/') d =
      (let d1 : Disk T := Function.update d (p ++ [c] ++ "temp".toList) none
       let d2 : Disk T := Function.update d1 (p ++ [c] ++ "temp".toList) (some t')
       let d3 : Disk T := Function.update d2 (p ++ [c]) none
       let d4 : Disk T := Function.update (Function.update d3 (p ++ [c] ++ "temp".toList) none) (p ++ [c]) (some t')
       ([d, d1, d2, d3, d4], .done)) := by
    unfold reorder
    rw [reorderName_spec p c hc k, bare_spec p c hc k]
    simp only [ht, hcopy]
  generalize p ++ [c] ++ "temp".toList = temp at *
  generalize p ++ [c] = ms at *
  rw [e]
  refine ⟨rfl, ?_, _, rfl, by simp, by simp [Function.update_of_ne hne.symm]⟩
  intro d' hd'
  simp only [List.mem_cons, List.not_mem_nil, or_false] at hd'
  rcases hd' with rfl | rfl | rfl | rfl | rfl
  · exact ⟨Or.inl ht, fun _ _ _ => rfl⟩
  · exact ⟨Or.inl (by rw [Function.update_of_ne hne]; exact ht), fun q _ h2 => by rw [Function.update_of_ne h2]⟩
  · refine ⟨Or.inr (Or.inr (by simp)), fun q _ h2 => ?_⟩
    rw [Function.update_of_ne h2, Function.update_of_ne h2]
  · refine ⟨Or.inr (Or.inr ?_), fun q h1 h2 => ?_⟩
    · rw [Function.update_of_ne hne.symm]; simp
    · rw [Function.update_of_ne h1, Function.update_of_ne h2, Function.update_of_ne h2]
  · refine ⟨Or.inr (Or.inl (by simp)), fun q h1 h2 => ?_⟩
    rw [Function.update_of_ne h1, Function.update_of_ne h2, Function.update_of_ne h1, Function.update_of_ne h2,
      Function.update_of_ne h2]

/-- **C123** A table that cannot be copied stays under its path. -/
theorem reorder_refused {T : Type} (copy : T → Option T) (p : Arg) (c : Char) (hc : c ≠ '/') (k : Nat) (d : Disk T)
    (t : T) (ht : d (p ++ [c]) = some t) (hcopy : copy t = none) :
    (reorder copy (p ++ [c] ++ List.replicate k '/') d).2 = .threw ∧
    ∀ d' ∈ (reorder copy (p ++ [c] ++ List.replicate k '/') d).1, d' (p ++ [c]) = some t ∧
      ∀ q, q ≠ p ++ [c] ++ "temp".toList → d' q = d q := by
  have hne : p ++ [c] ≠ p ++ [c] ++ "temp".toList := by
    intro h
    have := congrArg List.length h
    simp at this
  have e : reorder copy (p ++ [c] ++ List.replicate k '/') d =
      ([d, Function.update d (p ++ [c] ++ "temp".toList) none], .threw) := by
    unfold reorder
    rw [reorderName_spec p c hc k, bare_spec p c hc k]
    simp only [ht, hcopy]
  generalize p ++ [c] ++ "temp".toList = temp at *
  generalize p ++ [c] = ms at *
  rw [e]
  refine ⟨rfl, fun d' hd' => ?_⟩
  simp only [List.mem_cons, List.not_mem_nil, or_false] at hd'
  rcases hd' with rfl | rfl
  · exact ⟨ht, fun _ _ => rfl⟩
  · exact ⟨by rw [Function.update_of_ne hne]; exact ht, fun q h2 => by rw [Function.update_of_ne h2]⟩

/-- **C123** (negative) Another table whose name is the path with `temp` behind it is lost, even if the copy fails. -/
theorem reorder_overwrites {T : Type} (copy : T → Option T) (p : Arg) (c : Char) (hc : c ≠ '/') (k : Nat) (d : Disk T)
    (t : T) (ht : d (p ++ [c]) = some t) :
    ∃ d', (reorder copy (p ++ [c] ++ List.replicate k '/') d).1.getLast? = some d' ∧
      d' (p ++ [c] ++ "temp".toList) = none := by
  cases hcopy : copy t with
  | some t' =>
    obtain ⟨_, _, d', h1, _, h3⟩ := reorder_safe copy p c hc k d t t' ht hcopy
    exact ⟨d', h1, h3⟩
  | none =>
    refine ⟨Function.update d (p ++ [c] ++ "temp".toList) none, ?_, by simp⟩
    unfold reorder
    rw [reorderName_spec p c hc k, bare_spec p c hc k]
    simp only [ht, hcopy]
    rfl

/-- **C123** A table that `dscompress` made can be copied exactly if its distribution is not Student's t; the copy then has
a manager with the same settings. So `dscompress -studentt -reorder` always stops with an exception in `Reorder`. -/
theorem compressed_copied_iff (o : Options Nat Nat) (hb : 1 ≤ o.bitsPerFloat) (hw : 1 ≤ o.bitsPerWeight)
    (name : List Byte) :
    (ofSpec name (some (dataManagerSpec (Compress.manager o))) = none ↔ o.distribution = .studentsT) ∧
    ∀ m', ofSpec name (some (dataManagerSpec (Compress.manager o))) = some m' →
      m'.dataBitCount = o.bitsPerFloat ∧ m'.weightBitCount = o.bitsPerWeight ∧
      m'.distribution = Compress.distributionNumber o.distribution ∧
      m'.normalization = Compress.normalizationNumber o.normalization ∧
      (o.distribution = .truncatedGaussian → m'.distributionTruncation = o.truncation) := by
  have hd : (Compress.manager o).dataBitCount = o.bitsPerFloat := by
    unfold Compress.manager; cases o.distribution <;> rfl
  have hwt : (Compress.manager o).weightBitCount = o.bitsPerWeight := by
    unfold Compress.manager; cases o.distribution <;> rfl
  have hdist : (Compress.manager o).distribution = Compress.distributionNumber o.distribution := by
    unfold Compress.manager; cases o.distribution <;> rfl
  have hnorm : (Compress.manager o).normalization = Compress.normalizationNumber o.normalization := by
    unfold Compress.manager; cases o.distribution <;> rfl
  have htr : o.distribution = .truncatedGaussian → (Compress.manager o).distributionTruncation = o.truncation := by
    intro h; unfold Compress.manager; rw [h]
  have hn : (Compress.manager o).normalization ≤ 2 := by
    rw [hnorm]; cases o.normalization <;> decide
  by_cases hs : o.distribution = .studentsT
  · have := spec_students_refused (Compress.manager o) (by rw [hdist, hs]; rfl) name
    rw [this]
    exact ⟨⟨fun _ => hs, fun _ => rfl⟩, fun m' h => by cases h⟩
  · have hd3 : (Compress.manager o).distribution = 0 ∨ (Compress.manager o).distribution = 1 ∨
        (Compress.manager o).distribution = 3 := by
      rw [hdist]
      cases h : o.distribution
      · exact Or.inl rfl
      · exact Or.inr (Or.inl rfl)
      · exact absurd h hs
      · exact Or.inr (Or.inr rfl)
    obtain ⟨m', e, a1, a2, a3, a4, _, a6, _⟩ := spec_round_trip (Compress.manager o) (hd ▸ hb) (hwt ▸ hw) hd3 hn name
    rw [e]
    refine ⟨⟨fun h => by (cases h), fun h => absurd h hs⟩, fun m'' h => ?_⟩
    injection h with h
    subst h
    exact ⟨a1.trans hd, a2.trans hwt, a3.trans hdist, a4.trans hnorm, fun h => a6.trans (htr h)⟩

/-- A disk with a table to be reordered and one that is lost. -/
example : ∃ (d : Disk Nat), d "a.ms".toList = some 1 ∧ d "a.mstemp".toList = some 2 ∧
    (reorder (fun t => some (t + 10)) "a.ms/".toList d).2 = .done ∧
    ((reorder (fun t => some (t + 10)) "a.ms/".toList d).1.map fun d' => (d' "a.ms".toList, d' "a.mstemp".toList)) =
      [(some 1, some 2), (some 1, none), (some 1, some 11), (none, some 11), (some 11, none)] :=
  ⟨fun q => if q = "a.ms".toList then some 1 else if q = "a.mstemp".toList then some 2 else none, by decide, by decide,
    by decide, by decide⟩

end Dysco.Tools
