import Verif.ManagerProps

/-!
# C148: which accessor reaches a column

casacore calls a different virtual function for every type of array. `ThreadedDyscoColumn` overrides those for complex and float
arrays, and specialises each for one of the two types of columns. Everything else ends in the base class of casacore, which raises an
exception and is not part of the code.
-/

namespace Dysco.StMan

/-- The template argument of the base class of a column: dyscodatacolumn.h:18, dyscoweightcolumn.h:17. -/
def Made.element : Made → DataType
  | .weight => .float
  | .data _ => .complex

/-- Where a call ends: in `getValues` or `putValues` of the column, or in the base class of casacore. Not in the code. -/
inductive Target where
  | values
  | base
  deriving DecidableEq

/-- `getArrayComplexV`: the generic one, threadeddyscocolumn.h:64-70, and the one for complex, 230-234. -/
def getArrayComplex (element : DataType) : Target := if element = .complex then .values else .base

/-- `putArrayComplexV`: the generic one, threadeddyscocolumn.h:85-91, and the one for complex, 235-239. -/
def putArrayComplex (element : DataType) : Target := if element = .complex then .values else .base

/-- `getArrayfloatV`: the generic one, threadeddyscocolumn.h:71-76, and the one for float, 240-244. -/
def getArrayFloat (element : DataType) : Target := if element = .float then .values else .base

/-- `putArrayfloatV`: the generic one, threadeddyscocolumn.h:92-97, and the one for float, 245-249. -/
def putArrayFloat (element : DataType) : Target := if element = .float then .values else .base

/-- An access to one row of a column: the type of the array, and the values for a write. Not in the code: casacore makes the call. -/
inductive Access (V : Type) where
  | get (t : DataType) (row : Nat)
  | put (t : DataType) (row : Nat) (v : V)

/-- The virtual function that casacore calls for the type of the array, threadeddyscocolumn.h:64-97. -/
def Access.target (c : Made) : Access V → Target
  | .get .complex _ => getArrayComplex c.element
  | .get .float _ => getArrayFloat c.element
  | .get .other _ => .base
  | .put .complex _ _ => putArrayComplex c.element
  | .put .float _ _ => putArrayFloat c.element
  | .put .other _ _ => .base

/-- What `getValues` and `putValues` of a column do to all of its state, threadeddyscocolumn.cc:106-219. -/
structure Values (S V : Type) where
  get : Nat → S → S × V
  put : Nat → V → S → S

/-- One access; the result is `none` for the exception of the base class. threadeddyscocolumn.h:64-97, 228-249. -/
def Access.run (f : Values S V) (c : Made) (s : S) (a : Access V) : S × Option (Option V) :=
  match a.target c, a with
  | .base, _ => (s, none)
  | .values, .get _ row => let r := f.get row s; (r.1, some (some r.2))
  | .values, .put _ row v => (f.put row v s, some none)

/-- Accesses in order. Not in the code. -/
def accesses (f : Values S V) (c : Made) (s : S) : List (Access V) → S × List (Option (Option V))
  | [] => (s, [])
  | a :: as => let r := a.run f c s; let r' := accesses f c r.1 as; (r'.1, r.2 :: r'.2)

/-- The type of the array of an access. Not in the code. -/
def Access.type : Access V → DataType
  | .get t _ => t
  | .put t _ _ => t

/-- **C148**, one column: an access reaches the values of a column exactly if its array has the type with which the column was
requested. -/
theorem target_iff {seed : Bool} {name : String} {t : DataType} {c : Made} (h : makeDirArr seed name t = some c) (a : Access V) :
    a.target c = .values ↔ a.type = t := by
  have ht : t ≠ .other ∧ c.element = t := by
    unfold makeDirArr at h
    split at h
    · split at h
      · obtain rfl := Option.some.inj h
        subst_vars
        exact ⟨by decide, rfl⟩
      · cases h
    · split at h
      · obtain rfl := Option.some.inj h
        subst_vars
        exact ⟨by decide, rfl⟩
      · cases h
  obtain ⟨h1, rfl⟩ := ht
  rcases a with ⟨u, _⟩ | ⟨u, _, _⟩ <;> cases u <;>
    simp only [Access.target, Access.type, getArrayComplex, getArrayFloat, putArrayComplex, putArrayFloat] <;>
    rcases hc : c.element with _ | _ | _ <;> simp_all

/-- **C148**: with any accesses to a column, those with arrays of another type raise an exception and do nothing else: the others
have the effects and results that they would have alone. -/
theorem accesses_spec (f : Values S V) {seed : Bool} {name : String} {t : DataType} {c : Made}
    (h : makeDirArr seed name t = some c) (as : List (Access V)) (s : S) :
    (accesses f c s as).1 = (as.filter fun a => a.type == t).foldl (fun s a => match a with
      | .get _ row => (f.get row s).1
      | .put _ row v => f.put row v s) s ∧
    (accesses f c s as).2.map Option.isSome = as.map (fun a => a.type == t) ∧
    (accesses f c s as).2.filter Option.isSome = (accesses f c s (as.filter fun a => a.type == t)).2 := by
  induction as generalizing s with
  | nil => exact ⟨rfl, rfl, rfl⟩
  | cons a as ih =>
    have ha := target_iff h a
    by_cases hT : a.type = t
    · have hv := ha.2 hT
      rw [List.filter_cons_of_pos (by simpa using hT)]
      obtain ⟨i1, i2, i3⟩ := ih (a.run f c s).1
      have hsome : (a.run f c s).2.isSome = true := by
        unfold Access.run
        rw [hv]
        cases a <;> rfl
      simp only [accesses, List.map_cons, List.foldl_cons]
      refine ⟨?_, ?_, ?_⟩
      · rw [i1]
        congr 1
        unfold Access.run
        rw [hv]
        cases a <;> rfl
      · rw [i2, hsome]
        simp [hT]
      · rw [List.filter_cons_of_pos hsome, i3]
    · have hb : a.target c = .base := by
        cases hx : a.target c with
        | values => exact absurd (ha.1 hx) hT
        | base => rfl
      have hr : a.run f c s = (s, none) := by
        unfold Access.run
        rw [hb]
      rw [List.filter_cons_of_neg (by simpa using hT)]
      obtain ⟨i1, i2, i3⟩ := ih s
      simp only [accesses, List.map_cons, hr]
      refine ⟨i1, ?_, ?_⟩
      · rw [i2]
        simp [hT]
      · rw [List.filter_cons_of_neg (by simp), i3]

/-- **C148**, all columns of a manager: whatever calls were made, the column of an accepted request answers exactly to reads and
writes of arrays of the requested type. -/
theorem made_target (k : Maker) (pre post : List MakeOp) (name : String) (t : DataType) (ha : accepted (.direct name t) = true) :
    ∃ c, (k.run (pre ++ .direct name t :: post)).1.made[k.made.length +
        (pre.filter fun | .direct n t => accepted (.direct n t) | _ => false).length]? = some c ∧
      ∀ {V : Type} (a : Access V), a.target c = .values ↔ a.type = t := by
  have h := (made_spec (pre ++ .direct name t :: post) k).2.2.2.2 pre name t post rfl ha
  refine ⟨_, h, fun a => target_iff (seed := seedAfter k.staticSeed pre) (name := name) ?_ a⟩
  simp only [accepted] at ha
  unfold makeDirArr
  by_cases hn : name = "WEIGHT_SPECTRUM"
  · rw [if_pos hn] at ha ⊢
    rw [if_pos (by simpa using ha), if_pos hn]
  · rw [if_neg hn] at ha ⊢
    rw [if_pos (by simpa using ha), if_neg hn]

/-- A weight column made after a request that was refused. -/
example (k : Maker) : ∃ c, (k.run ([.scalar "TIME" .other, .direct "DATA" .complex] ++
      .direct "WEIGHT_SPECTRUM" .float :: [.direct "WEIGHT_SPECTRUM" .complex])).1.made[k.made.length + 1]? = some c ∧
    (Access.put .float 0 () : Access Unit).target c = .values ∧ (Access.put .complex 0 () : Access Unit).target c = .base := by
  obtain ⟨c, h1, h2⟩ := made_target k [.scalar "TIME" .other, .direct "DATA" .complex] [.direct "WEIGHT_SPECTRUM" .complex]
    "WEIGHT_SPECTRUM" .float (by decide)
  refine ⟨c, h1, (h2 _).2 rfl, ?_⟩
  have := mt (h2 (Access.put .complex 0 () : Access Unit)).1 (by decide)
  cases hx : (Access.put .complex 0 () : Access Unit).target c with
  | values => exact absurd hx this
  | base => rfl

/-- A data column: a write of complex values is stored, one of floats and one of another type are not. -/
example : accesses (⟨fun row s => (s, s row), fun row v s => Function.update s row v⟩ : Values (Nat → Nat) Nat) (.data false) (fun _ => 0)
    [.put .complex 3 7, .put .float 3 8, .get .other 3, .get .complex 3] =
      (Function.update (fun _ => 0) 3 7, [some none, none, none, some (some 7)]) ∧
    makeDirArr false "DATA" .complex = some (.data false) := by
  refine ⟨?_, rfl⟩
  simp [accesses, Access.run, Access.target, Made.element, getArrayComplex, putArrayComplex, putArrayFloat]

end Dysco.StMan
