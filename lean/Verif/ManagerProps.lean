import Verif.StManProps

/-!
# Creating columns and managers

The functions of `DyscoStMan` that casacore calls to make columns and copies of the manager.
-/

namespace Dysco.StMan

/-- The data types that matter: `casacore::TpFloat`, `casacore::TpComplex`, and all others. dyscostman.cc:316-336. -/
inductive DataType where
  | float
  | complex
  | other
  deriving DecidableEq

/-- A column object: its class, and for a `DyscoDataColumn` whether it has the static seed
(`_randomize == false`, dyscodatacolumn.h:43-48). -/
inductive Made where
  | weight
  | data (staticSeed : Bool)
  deriving DecidableEq

/-- A manager with the flag that is not part of `Man`, dyscostman.h:403, and its column objects. -/
structure Maker where
  man : Man
  staticSeed : Bool
  made : List Made

/-- `makeDirArrColumn`, dyscostman.cc:316-336: the class of the column; `none` is an exception. -/
def makeDirArr (staticSeed : Bool) (name : String) (t : DataType) : Option Made :=
  if name = "WEIGHT_SPECTRUM" then if t = .float then some .weight else none
  else if t = .complex then some (.data staticSeed)
  else none

/-- Calls on a manager. -/
inductive MakeOp where
  /-- `SetStaticSeed`, dyscostman.h:125 -/
  | setStaticSeed (b : Bool)
  /-- `makeScalarColumn`, dyscostman.cc:307-314 -/
  | scalar (name : String) (t : DataType)
  /-- `makeDirArrColumn`, dyscostman.cc:316-336 -/
  | direct (name : String) (t : DataType)
  /-- `makeIndArrColumn`, dyscostman.cc:338-345 -/
  | indirect (name : String) (t : DataType)

/-- One call; the result says that no exception was raised. dyscostman.cc:307-345. -/
def Maker.step (k : Maker) : MakeOp → Maker × Bool
  | .setStaticSeed b => ({ k with staticSeed := b }, true)
  | .scalar _ _ => (k, false)
  | .direct name t =>
    match makeDirArr k.staticSeed name t with
    | some c => ({ k with made := k.made ++ [c] }, true)
    | none => (k, false)
  | .indirect _ _ => (k, false)

/-- A sequence of calls, with the outcomes. Not in the code. -/
def Maker.run (k : Maker) : List MakeOp → Maker × List Bool
  | [] => (k, [])
  | op :: ops => let r := k.step op; let r' := r.1.run ops; (r'.1, r.2 :: r'.2)

/-- The copy constructor and `clone`, dyscostman.cc:54-69, dyscostman.h:157-159. -/
def Maker.clone (k : Maker) : Maker where
  man := ⟨0, 0, 0, 0, 0, 0, k.man.name, k.man.dataBitCount, k.man.weightBitCount, k.man.distribution,
    k.man.normalization, k.man.studentTNu, k.man.distributionTruncation, [], ⟨0, fun _ => 0⟩, false⟩
  staticSeed := k.staticSeed
  made := []

/-- The constructor from a record, dyscostman.cc:34-52: `_staticSeed` is false. -/
def Maker.ofSpec (name : List Byte) (spec : Option Spec) : Option Maker :=
  (StMan.ofSpec name spec).map fun m => ⟨m, false, []⟩

/-! ## C75 -/

/-- Whether a call is accepted, and what it makes with the static seed on or off. -/
def accepted : MakeOp → Bool
  | .setStaticSeed _ => true
  | .direct name t => if name = "WEIGHT_SPECTRUM" then t == .float else t == .complex
  | _ => false

/-- The static seed after these calls. -/
def seedAfter (b : Bool) (ops : List MakeOp) : Bool :=
  ((ops.filterMap fun | .setStaticSeed b => some b | _ => none).getLast?).getD b

theorem seedAfter_cons (b : Bool) (op : MakeOp) (ops : List MakeOp) :
    seedAfter b (op :: ops) = seedAfter (seedAfter b [op]) ops := by
  unfold seedAfter
  cases op with
  | setStaticSeed c =>
    rw [List.filterMap_cons_some (by rfl)]
    cases ops.filterMap (fun | MakeOp.setStaticSeed b => some b | _ => none) with
    | nil => rfl
    | cons x l =>
      rw [List.getLast?_cons_cons]
      cases h : (x :: l).getLast? with
      | none => simp at h
      | some y => rfl
  | scalar _ _ | direct _ _ | indirect _ _ => rw [List.filterMap_cons_none (by rfl)]; rfl

/-- What one call adds. -/
def adds (seed : Bool) : MakeOp → List Made
  | .direct n t => if accepted (.direct n t) then [if n = "WEIGHT_SPECTRUM" then .weight else .data seed] else []
  | _ => []

theorem step_spec (k : Maker) (op : MakeOp) : (k.step op).1.staticSeed = seedAfter k.staticSeed [op] ∧
    (k.step op).1.man = k.man ∧ (k.step op).2 = accepted op ∧ (k.step op).1.made = k.made ++ adds k.staticSeed op := by
  cases op with
  | setStaticSeed _ | scalar _ _ | indirect _ _ => exact ⟨rfl, rfl, rfl, (List.append_nil _).symm⟩
  | direct n t =>
    simp only [Maker.step, makeDirArr, accepted, adds, seedAfter]
    by_cases hn : n = "WEIGHT_SPECTRUM" <;> cases t <;> simp [hn]

/-- The columns of a manager are exactly the accepted requests in order: `WEIGHT_SPECTRUM` with type float makes a
weight column, a complex column of any other name a data column, with the seed setting at that moment; every
other request raises an exception and leaves the manager as it was. -/
theorem made_spec (ops : List MakeOp) (k : Maker) :
    (k.run ops).2 = ops.map accepted ∧ (k.run ops).1.staticSeed = seedAfter k.staticSeed ops ∧
    (k.run ops).1.man = k.man ∧ k.made <+: (k.run ops).1.made ∧
    ∀ pre name t post, ops = pre ++ .direct name t :: post → accepted (.direct name t) = true →
      (k.run ops).1.made[k.made.length + (pre.filter fun | .direct n t => accepted (.direct n t) | _ => false).length]? =
        some (if name = "WEIGHT_SPECTRUM" then .weight else .data (seedAfter k.staticSeed pre)) := by
  induction ops generalizing k with
  | nil => exact ⟨rfl, rfl, rfl, List.prefix_refl _, fun pre name t post h => by simp at h⟩
  | cons op ops ih =>
    obtain ⟨i1, i2, i3, i4, i5⟩ := ih (k.step op).1
    obtain ⟨s1, s2, s3, s4⟩ := step_spec k op
    simp only [Maker.run, List.map_cons]
    refine ⟨by rw [s3, i1], by rw [i2, s1, ← seedAfter_cons], i3.trans s2, ?_, ?_⟩
    · exact (by rw [s4]; exact List.prefix_append _ _ : k.made <+: (k.step op).1.made).trans i4
    · intro pre name t post he ha
      cases pre with
      | nil =>
        simp only [List.nil_append, List.cons.injEq] at he
        obtain ⟨rfl, rfl⟩ := he
        simp only [adds, ha, if_true] at s4
        obtain ⟨r, hr⟩ := i4
        rw [← hr, s4, List.filter_nil, List.length_nil, Nat.add_zero, List.append_assoc,
          List.getElem?_append_right (Nat.le_refl _), Nat.sub_self]
        rfl
      | cons x pre =>
        simp only [List.cons_append, List.cons.injEq] at he
        obtain ⟨rfl, he⟩ := he
        have := i5 pre name t post he ha
        rw [s1] at this
        rw [seedAfter_cons, ← this, s4]
        congr 1
        rw [List.length_append]
        cases op with
        | setStaticSeed _ | scalar _ _ | indirect _ _ => rw [List.filter_cons_of_neg (by simp)]; rfl
        | direct n t' =>
          by_cases hacc : accepted (.direct n t') = true
          · rw [List.filter_cons_of_pos (by simpa using hacc)]
            simp only [adds, hacc, if_true, List.length_cons, List.length_nil]
            omega
          · rw [List.filter_cons_of_neg (by simpa using hacc)]
            simp [adds, hacc]

/-- A copy has all settings, the seed included, and nothing else. -/
theorem clone_spec (k : Maker) :
    k.clone.staticSeed = k.staticSeed ∧ k.clone.man.name = k.man.name ∧
    dataManagerSpec k.clone.man = dataManagerSpec k.man ∧ k.clone.made = [] ∧ k.clone.man.columns = [] ∧
    k.clone.man.nRow = 0 ∧ k.clone.man.nBlocks = 0 ∧ areOffsetsInitialized k.clone.man = false ∧
    k.clone.clone = k.clone :=
  ⟨rfl, rfl, rfl, rfl, rfl, rfl, rfl, rfl, rfl⟩

/-- A manager made from the record of another one never has the static seed: the record does not hold it. -/
theorem spec_drops_seed (k k' : Maker) (name : List Byte)
    (h : Maker.ofSpec name (some (dataManagerSpec k.man)) = some k') : k'.staticSeed = false := by
  unfold Maker.ofSpec at h
  cases e : StMan.ofSpec name (some (dataManagerSpec k.man)) with
  | none => rw [e] at h; cases h
  | some m =>
    rw [e] at h
    injection h with h
    rw [← h]

/-- Three requests, one of them refused. -/
example : ((⟨sampleMan, false, []⟩ : Maker).run
      [.direct "DATA" .complex, .setStaticSeed true, .direct "WEIGHT_SPECTRUM" .complex,
        .direct "MODEL_DATA" .complex, .direct "WEIGHT_SPECTRUM" .float]).1.made =
    [.data false, .data true, .weight] := by decide

example : ∃ k', Maker.ofSpec [] (some (dataManagerSpec (⟨sampleMan, true, []⟩ : Maker).man)) = some k' :=
  ⟨_, rfl⟩

end Dysco.StMan
