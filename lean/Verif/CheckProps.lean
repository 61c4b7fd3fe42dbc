import Verif.ToolsModel
import Mathlib.Data.List.SplitBy

/-!
# The ordering check of dscompress: C52
-/

namespace Dysco.Tools

variable {K : Type}

/-- The baseline of a row. -/
def Row.ants (r : Row K) : Int × Int := (r.ant1, r.ant2)

/-- A time block: a maximal run of rows in which each row has the key of the row before it. -/
def blocks (differs : K → K → Bool) (rows : List (Row K)) : List (List (Row K)) :=
  rows.splitBy fun a b => !differs b.key a.key

/-- The baselines of the time blocks. -/
def baselines (differs : K → K → Bool) (rows : List (Row K)) : List (List (Int × Int)) :=
  (blocks differs rows).map (List.map Row.ants)

/-- Compare blocks with the first one, in order. -/
def verdict (first : List (Int × Int)) : List (List (Int × Int)) → CheckResult Unit
  | [] => .ok ()
  | b :: bs => if b = first then verdict first bs else if first <+: b then .ub else .throws

/-- The test after the loop, dscompress.cc:319-324. -/
def finish (r : CheckResult (CheckState K)) : CheckResult Unit :=
  match r with
  | .ok s => if s.blockOffset ≠ s.antennasInBlock.length then .throws else .ok ()
  | .throws => .throws
  | .ub => .ub

/-- The key of the last row of a run. -/
def lastKey (k : K) (rs : List (Row K)) : K := rs.foldl (fun _ r => r.key) k

/-- The rows of a run have the key of the row before. -/
def Run (differs : K → K → Bool) : K → List (Row K) → Prop
  | _, [] => True
  | k, r :: rs => differs r.key k = false ∧ Run differs r.key rs

theorem checkLoop_cons (differs : K → K → Bool) (r : Row K) (rs : List (Row K)) (s s' : CheckState K)
    (h : checkRow differs r s = .ok s') : checkLoop differs (r :: rs) s = checkLoop differs rs s' := by
  simp only [checkLoop, h]

/-- The first block is collected. -/
theorem first_run (differs : K → K → Bool) (tail : List (Row K)) :
    ∀ (rs : List (Row K)) (k : K) (ants : List (Int × Int)), Run differs k rs →
      checkLoop differs (rs ++ tail) ⟨k, ants, ants.length, 0⟩ =
        checkLoop differs tail ⟨lastKey k rs, ants ++ rs.map Row.ants, (ants ++ rs.map Row.ants).length, 0⟩ := by
  intro rs
  induction rs with
  | nil => intro k ants _; simp [lastKey]
  | cons r rs ih =>
    intro k ants h
    have hr : checkRow differs r ⟨k, ants, ants.length, 0⟩ =
        .ok ⟨r.key, ants ++ [r.ants], (ants ++ [r.ants]).length, 0⟩ := by
      simp [checkRow, h.1, Row.ants]
    rw [List.cons_append, checkLoop_cons _ _ _ _ _ hr, ih _ _ h.2]
    simp [lastKey]

/-- A run in a later block is compared with the list at the offset. -/
theorem later_run (differs : K → K → Bool) (tail : List (Row K)) (ants : List (Int × Int)) (n : Nat) :
    ∀ (rs : List (Row K)) (k : K) (pre suf : List (Int × Int)), ants = pre ++ suf → Run differs k rs →
      checkLoop differs (rs ++ tail) ⟨k, ants, pre.length, n + 1⟩ =
        if rs.map Row.ants <+: suf then
          checkLoop differs tail ⟨lastKey k rs, ants, pre.length + rs.length, n + 1⟩
        else if suf <+: rs.map Row.ants then .ub else .throws := by
  intro rs
  induction rs with
  | nil => intro k pre suf _ _; simp [lastKey]
  | cons r rs ih =>
    intro k pre suf hs h
    cases suf with
    | nil =>
      have hr : checkRow differs r ⟨k, ants, pre.length, n + 1⟩ = .ub := by
        simp [checkRow, h.1, hs]
      simp [checkLoop, hr]
    | cons a suf =>
      by_cases ha : a = r.ants
      · have hr : checkRow differs r ⟨k, ants, pre.length, n + 1⟩ = .ok ⟨r.key, ants, (pre ++ [a]).length, n + 1⟩ := by
          simp [checkRow, h.1, hs, ha, Row.ants]
        rw [List.cons_append, checkLoop_cons _ _ _ _ _ hr, ih _ (pre ++ [a]) suf (by simp [hs]) h.2]
        simp [ha, List.cons_prefix_cons, lastKey, Nat.add_assoc, Nat.add_comm 1]
      · have hr : checkRow differs r ⟨k, ants, pre.length, n + 1⟩ = .throws := by
          have : a.1 ≠ r.ant1 ∨ a.2 ≠ r.ant2 := by
            by_contra hc
            push Not at hc
            exact ha (Prod.ext hc.1 hc.2)
          obtain ⟨a1, a2⟩ := a
          simp [checkRow, h.1, hs]
          tauto
        have ha' : ¬ r.ants = a := fun e => ha e.symm
        simp [checkLoop, hr, List.cons_prefix_cons, ha, ha']

/-- A block that ended too early is refused. -/
theorem short_block (differs : K → K → Bool) (tail : List (Row K)) (s : CheckState K)
    (ht : ∀ r ∈ tail.head?, differs r.key s.last = true) (ho : s.blockOffset ≠ s.antennasInBlock.length) :
    finish (checkLoop differs tail s) = .throws := by
  cases tail with
  | nil => simp [checkLoop, finish, ho]
  | cons r rs =>
    have hr : checkRow differs r s = .throws := by
      have := ht r (by simp)
      simp [checkRow, this, ho]
    simp [checkLoop, hr, finish]

/-- Runs separated by changes of the key. -/
def Runs (differs : K → K → Bool) : K → List (List (Row K)) → Prop
  | _, [] => True
  | k, b :: bs => ∃ r rs, b = r :: rs ∧ differs r.key k = true ∧ Run differs r.key rs ∧
      Runs differs (lastKey r.key rs) bs

theorem runs_head (differs : K → K → Bool) (k : K) (bs : List (List (Row K))) (h : Runs differs k bs) :
    ∀ r ∈ bs.flatten.head?, differs r.key k = true := by
  cases bs with
  | nil => simp
  | cons b bs =>
    obtain ⟨r, rs, rfl, h1, _, _⟩ := h
    intro r' hr'
    have : r = r' := by simpa using hr'
    exact this ▸ h1

theorem later_runs (differs : K → K → Bool) (ants : List (Int × Int)) :
    ∀ (bs : List (List (Row K))) (k : K) (n : Nat), Runs differs k bs →
      finish (checkLoop differs bs.flatten ⟨k, ants, ants.length, n⟩) = verdict ants (bs.map (List.map Row.ants)) := by
  intro bs
  induction bs with
  | nil => intro k n _; simp [checkLoop, finish, verdict]
  | cons b bs ih =>
    intro k n h
    obtain ⟨r, rs, rfl, h1, h2, h3⟩ := h
    have hd := runs_head differs _ _ h3
    simp only [List.flatten_cons, List.map_cons, verdict, List.cons_append]
    cases ants with
    | nil =>
      have hr : checkRow differs r ⟨k, [], ([] : List (Int × Int)).length, n⟩ = .ub := by
        simp [checkRow, h1]
      simp only [checkLoop, hr, finish]
      simp
    | cons a as =>
      by_cases ha : a = r.ants
      · have hr : checkRow differs r ⟨k, a :: as, (a :: as).length, n⟩ = .ok ⟨r.key, a :: as, [a].length, n + 1⟩ := by
          simp [checkRow, h1, ha, Row.ants]
        rw [checkLoop_cons _ _ _ _ _ hr, later_run differs _ (a :: as) n rs r.key [a] as rfl h2]
        by_cases hp : rs.map Row.ants <+: as
        · rw [if_pos hp]
          by_cases he : rs.map Row.ants = as
          · rw [if_pos (by rw [he, ha])]
            have hl : [a].length + rs.length = (a :: as).length := by
              rw [← he]; simp [Nat.add_comm]
            rw [hl]
            exact ih _ _ h3
          · rw [if_neg (by rw [ha]; simpa using he)]
            have hlen : rs.length ≠ as.length := by
              intro hl
              exact he (hp.eq_of_length (by simpa using hl))
            rw [if_neg, short_block]
            · exact hd
            · simp only [List.length_cons, List.length_nil]; omega
            · rw [ha, List.cons_prefix_cons]
              intro hq
              exact he (hp.eq_of_length (Nat.le_antisymm hp.length_le hq.2.length_le))
        · have he : rs.map Row.ants ≠ as := fun e => hp (e ▸ List.prefix_refl _)
          have he' : ¬ r.ants :: rs.map Row.ants = a :: as := by rw [ha]; simpa using he
          rw [if_neg hp, if_neg he']
          by_cases hq : as <+: rs.map Row.ants
          · have hq' : a :: as <+: r.ants :: rs.map Row.ants := by rw [ha, List.cons_prefix_cons]; exact ⟨rfl, hq⟩
            rw [if_pos hq, if_pos hq']; rfl
          · have hq' : ¬ a :: as <+: r.ants :: rs.map Row.ants := by
              rw [ha, List.cons_prefix_cons]; exact fun h => hq h.2
            rw [if_neg hq, if_neg hq']; rfl
      · have hr : checkRow differs r ⟨k, a :: as, (a :: as).length, n⟩ = .throws := by
          have : a.1 ≠ r.ant1 ∨ a.2 ≠ r.ant2 := by
            by_contra hc
            push Not at hc
            exact ha (Prod.ext hc.1 hc.2)
          obtain ⟨a1, a2⟩ := a
          simp [checkRow, h1]
          tauto
        have ha' : ¬ r.ants = a := fun e => ha e.symm
        rw [if_neg (by simp [ha']), if_neg (by simp [List.cons_prefix_cons, ha])]
        simp only [checkLoop, hr, finish]

theorem lastKey_eq (k : K) (rs : List (Row K)) (r : Row K) :
    lastKey k (r :: rs) = ((r :: rs).getLast (by simp)).key := by
  induction rs generalizing k r with
  | nil => simp [lastKey]
  | cons a rs ih => exact (ih r.key a).trans (by simp)

theorem run_of_chain (differs : K → K → Bool) (r : Row K) (rs : List (Row K))
    (h : (r :: rs).IsChain fun a b => (!differs b.key a.key) = true) : Run differs r.key rs := by
  induction rs generalizing r with
  | nil => trivial
  | cons a rs ih =>
    rw [List.isChain_cons_cons] at h
    exact ⟨by simpa using h.1, ih a h.2⟩

theorem runs_of_chain (differs : K → K → Bool) :
    ∀ (bs : List (List (Row K))) (r : Row K) (rs : List (Row K)),
      (∀ b ∈ (r :: rs) :: bs, b ≠ [] ∧ b.IsChain fun a b => (!differs b.key a.key) = true) →
      ((r :: rs) :: bs).IsChain (fun a b => ∃ ha hb, (!differs (b.head hb).key (a.getLast ha).key) = false) →
      Runs differs (lastKey r.key rs) bs := by
  intro bs
  induction bs with
  | nil => intros; trivial
  | cons b bs ih =>
    intro r rs h1 h2
    obtain ⟨hne, hc⟩ := h1 b (by simp)
    obtain ⟨r', rs', rfl⟩ := List.exists_cons_of_ne_nil hne
    rw [List.isChain_cons_cons] at h2
    obtain ⟨⟨ha, hb, hd⟩, h2⟩ := h2
    refine ⟨r', rs', rfl, ?_, run_of_chain _ _ _ hc, ih r' rs' (fun b hb => h1 b (by simp at hb ⊢; tauto)) h2⟩
    have : lastKey r.key rs = ((r :: rs).getLast ha).key := (lastKey_eq r.key rs r)
    rw [this]
    simpa using hd

/-- What the check does, for every table: its verdict is that of comparing the blocks with the first one in order. When
the key of the first row differs from itself (NaN), the empty list is indexed. -/
theorem check_eq (differs : K → K → Bool) (r : Row K) (rs : List (Row K)) :
    check differs (r :: rs) = if differs r.key r.key then .ub else
      verdict ((baselines differs (r :: rs)).head?.getD []) (baselines differs (r :: rs)).tail := by
  have hfin : check differs (r :: rs) = finish (checkLoop differs (r :: rs) ⟨r.key, [], 0, 0⟩) := rfl
  rw [hfin]
  by_cases hd : differs r.key r.key = true
  · rw [if_pos hd]
    have hr : checkRow differs r ⟨r.key, [], 0, 0⟩ = .ub := by simp [checkRow, hd]
    simp only [checkLoop, hr, finish]
  · rw [if_neg hd]
    have hne : blocks differs (r :: rs) ≠ [] := List.splitBy_ne_nil.2 (by simp)
    obtain ⟨b, bs, hb⟩ := List.exists_cons_of_ne_nil hne
    have h1 : ∀ b' ∈ b :: bs, b' ≠ [] ∧ b'.IsChain fun a b => (!differs b.key a.key) = true := by
      intro b' hb'
      rw [← hb] at hb'
      exact ⟨List.ne_nil_of_mem_splitBy hb', List.isChain_of_mem_splitBy hb'⟩
    have h2 : (b :: bs).IsChain (fun a b => ∃ ha hb, (!differs (b.head hb).key (a.getLast ha).key) = false) := by
      rw [← hb]; exact List.isChain_getLast_head_splitBy (fun a b : Row K => !differs b.key a.key) _
    have hflat : (b :: bs).flatten = r :: rs := by rw [← hb]; exact List.flatten_splitBy _ _
    obtain ⟨r', rs', rfl⟩ := List.exists_cons_of_ne_nil (h1 b (by simp)).1
    have hrr : r' = r := by simp at hflat; exact hflat.1
    subst hrr
    have hrun : Run differs r'.key (r' :: rs') := ⟨by simpa using hd, run_of_chain _ _ _ (h1 _ (by simp)).2⟩
    have := first_run differs bs.flatten (r' :: rs') r'.key [] hrun
    rw [← hflat, List.flatten_cons]
    refine (congrArg finish this).trans ?_
    have h3 := later_runs differs ([] ++ (r' :: rs').map Row.ants) bs (lastKey r'.key (r' :: rs')) 0
      (by exact runs_of_chain differs bs r' rs' h1 h2)
    rw [h3, ← List.flatten_cons, hflat]
    simp [baselines, hb]

theorem verdict_ok_iff (first : List (Int × Int)) (bs : List (List (Int × Int))) :
    verdict first bs = .ok () ↔ ∀ b ∈ bs, b = first := by
  induction bs with
  | nil => simp [verdict]
  | cons b bs ih =>
    rw [verdict]
    split
    · rename_i h; rw [ih]; simp [h]
    · rename_i h
      split <;> simp [h]

theorem verdict_ub_iff (first : List (Int × Int)) (bs : List (List (Int × Int))) :
    verdict first bs = .ub ↔
      ∃ pre b suf, bs = pre ++ b :: suf ∧ (∀ x ∈ pre, x = first) ∧ b ≠ first ∧ first <+: b := by
  induction bs with
  | nil => simp [verdict]
  | cons b bs ih =>
    rw [verdict]
    by_cases hb : b = first
    · rw [if_pos hb, ih]
      constructor
      · rintro ⟨pre, c, suf, rfl, h1, h2, h3⟩
        exact ⟨b :: pre, c, suf, rfl, by simpa [hb] using h1, h2, h3⟩
      · rintro ⟨pre, c, suf, he, h1, h2, h3⟩
        cases pre with
        | nil =>
          simp only [List.nil_append, List.cons.injEq] at he
          exact absurd (he.1 ▸ hb) h2
        | cons p pre =>
          simp only [List.cons_append, List.cons.injEq] at he
          exact ⟨pre, c, suf, he.2, fun x hx => h1 x (by simp [hx]), h2, h3⟩
    · rw [if_neg hb]
      constructor
      · intro h
        by_cases hp : first <+: b
        · exact ⟨[], b, bs, rfl, by simp, hb, hp⟩
        · rw [if_neg hp] at h; simp at h
      · rintro ⟨pre, c, suf, he, h1, h2, h3⟩
        cases pre with
        | nil =>
          simp only [List.nil_append, List.cons.injEq] at he
          rw [if_pos (he.1 ▸ h3)]
        | cons p pre =>
          simp only [List.cons_append, List.cons.injEq] at he
          exact absurd (he.1 ▸ h1 p (by simp)) hb

/-- C52: the check passes if and only if the table has rows, the first row's time is a number, and all time blocks have
the same baselines in the same order. -/
theorem check_passes_iff (differs : K → K → Bool) (rows : List (Row K)) :
    check differs rows = .ok () ↔
      (∃ r ∈ rows.head?, differs r.key r.key = false) ∧
        ∀ b ∈ baselines differs rows, ∀ c ∈ baselines differs rows, b = c := by
  cases rows with
  | nil => simp [check]
  | cons r rs =>
    rw [check_eq]
    by_cases hd : differs r.key r.key = true
    · simp [hd]
    · have hne : blocks differs (r :: rs) ≠ [] := List.splitBy_ne_nil.2 (by simp)
      obtain ⟨b, bs, hb⟩ := List.exists_cons_of_ne_nil hne
      rw [if_neg hd, verdict_ok_iff]
      simp only [baselines, hb, List.map_cons, List.head?_cons, Option.getD_some, List.tail_cons]
      constructor
      · intro h
        refine ⟨⟨r, by simp, by simpa using hd⟩, ?_⟩
        have h' : ∀ x ∈ b.map Row.ants :: bs.map (List.map Row.ants), x = b.map Row.ants := by
          intro x hx
          rcases List.mem_cons.1 hx with rfl | hx
          · rfl
          · exact h x hx
        intro x hx y hy
        rw [h' x hx, h' y hy]
      · rintro ⟨-, h⟩ x hx
        exact h x (List.mem_cons_of_mem _ hx) _ (by simp)

/-- C52: the check reads outside its list if and only if the table is empty, the first time is not a number, or the first
block that deviates from the first one is a longer block that begins with the baselines of the first. Every other
irregular table is refused. -/
theorem check_ub_iff (differs : K → K → Bool) (rows : List (Row K)) :
    check differs rows = .ub ↔
      rows = [] ∨ (∃ r ∈ rows.head?, differs r.key r.key = true) ∨
        ∃ first pre b suf, baselines differs rows = first :: (pre ++ b :: suf) ∧
          (∀ x ∈ pre, x = first) ∧ b ≠ first ∧ first <+: b := by
  cases rows with
  | nil => simp [check]
  | cons r rs =>
    rw [check_eq]
    by_cases hd : differs r.key r.key = true
    · simp [hd]
    · have hne : blocks differs (r :: rs) ≠ [] := List.splitBy_ne_nil.2 (by simp)
      obtain ⟨b, bs, hb⟩ := List.exists_cons_of_ne_nil hne
      rw [if_neg hd, verdict_ub_iff]
      simp only [baselines, hb, List.map_cons, List.head?_cons, Option.getD_some, List.tail_cons]
      constructor
      · rintro ⟨pre, c, suf, h⟩
        exact Or.inr (Or.inr ⟨_, pre, c, suf, by rw [h.1], h.2⟩)
      · rintro (h | ⟨r', hr', h⟩ | ⟨first, pre, c, suf, he, h⟩)
        · exact absurd h (by simp)
        · have : r = r' := by simpa using hr'
          exact absurd (this ▸ h) hd
        · simp only [List.cons.injEq] at he
          exact ⟨pre, c, suf, he.2, he.1 ▸ h⟩

/-- Two blocks of two baselines. -/
def regularRows : List (Row Nat) :=
  [⟨5, 0, 1⟩, ⟨5, 0, 2⟩, ⟨7, 0, 1⟩, ⟨7, 0, 2⟩, ⟨5, 0, 1⟩, ⟨5, 0, 2⟩]

example : check (fun a b => a != b) regularRows = .ok () := by rfl

example : baselines (fun a b => a != b) regularRows = [[(0, 1), (0, 2)], [(0, 1), (0, 2)], [(0, 1), (0, 2)]] := by
  decide +kernel

/-- A longer second block: undefined behaviour. -/
example : check (fun a b => a != b) [(⟨5, 0, 1⟩ : Row Nat), ⟨7, 0, 1⟩, ⟨7, 0, 2⟩] = .ub := by rfl

/-- A shorter last block is refused. -/
example : check (fun a b => a != b) [(⟨5, 0, 1⟩ : Row Nat), ⟨5, 0, 2⟩, ⟨7, 0, 1⟩] = .throws := by rfl

/-- The theorems on this table: it passes as all three blocks have the same baselines. -/
example : (∃ r ∈ regularRows.head?, (r.key != r.key) = false) ∧ ∀ b ∈ baselines (fun a b => a != b) regularRows,
    ∀ c ∈ baselines (fun a b => a != b) regularRows, b = c :=
  (check_passes_iff (fun a b => a != b) regularRows).mp rfl

/-- And on the longer second block: it begins with the baselines of the first. -/
example : check (fun a b => a != b) [(⟨5, 0, 1⟩ : Row Nat), ⟨7, 0, 1⟩, ⟨7, 0, 2⟩] = .ub :=
  (check_ub_iff _ _).mpr (.inr (.inr ⟨[(0, 1)], [], [(0, 1), (0, 2)], [], by decide +kernel, by simp, by decide, by decide⟩))

example : check (fun a b => a != b) [(⟨5, 0, 1⟩ : Row Nat), ⟨5, 0, 2⟩, ⟨7, 0, 1⟩] = .throws := by
  rw [check_eq]; rfl

end Dysco.Tools
