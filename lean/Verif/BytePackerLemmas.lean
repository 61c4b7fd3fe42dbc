import Verif.BytePackerModel

/-!
# Helper lemmas for the byte packer

A symbolic executor (`absRun`) that computes from which source bits every destination bit is
composed, its soundness with respect to the concrete executor, and the lifting from one group to
all groups plus the tail.
-/

namespace Dysco.BytePacker

/-- Whether bit `j` passes the mask. -/
def Expr.keeps (e : Expr) (j : Nat) : Bool :=
  decide (j < 32) && (match e.mask with | none => true | some m => m.testBit j)

/-- Source bit that lands in bit `i` of the value of `e`, if any. -/
def Expr.srcBit (e : Expr) (i : Nat) : Option Nat :=
  match e.sh with
  | .id => if e.keeps i then some i else none
  | .shl k => if k ≤ i ∧ e.keeps (i - k) then some (i - k) else none
  | .shr k => if e.keeps (i + k) then some (i + k) else none

theorem Expr.srcBit_lt {e : Expr} {i j : Nat} (h : e.srcBit i = some j) : j < 32 := by
  unfold Expr.srcBit at h
  split at h <;> split at h <;> simp_all [Expr.keeps] <;> omega

theorem Expr.masked_bit (e : Expr) (v : BitVec 32) (j : Nat) :
    (e.masked v).getLsbD j = (v.getLsbD j && e.keeps j) := by
  unfold Expr.masked Expr.keeps
  cases e.mask with
  | none =>
    by_cases h : j < 32
    · simp [h]
    · simp [BitVec.getLsbD_of_ge v j (by omega)]
  | some m =>
    simp only [BitVec.getLsbD_and, BitVec.getLsbD_ofNat]

theorem Expr.eval_bit (e : Expr) (v : BitVec 32) (i : Nat) (hi : i < 32) :
    (e.eval v).getLsbD i = match e.srcBit i with
      | none => false
      | some j => v.getLsbD j := by
  unfold Expr.eval Expr.srcBit
  cases hs : e.sh with
  | id =>
    simp only [masked_bit]
    by_cases h : e.keeps i = true <;> simp [h]
  | shl k =>
    simp only [BitVec.getLsbD_shiftLeft, hi, decide_true, Bool.true_and, masked_bit]
    by_cases hk : k ≤ i
    · by_cases h : e.keeps (i - k) = true <;> simp [h, hk]
    · simp [hk, Nat.lt_of_not_le hk]
  | shr k =>
    simp only [BitVec.getLsbD_ushiftRight, masked_bit, Nat.add_comm k i]
    by_cases h : e.keeps (i + k) = true <;> simp [h]

/-- Origins of the bits of one cell: for each bit the list of (source cell, bit) or-ed together. -/
abbrev Cell := List (List (Nat × Nat))

/-- Cell stored by `*dst = e` when the source pointer is at offset `so`;
source bits at or above `su` are known to be zero. -/
def absCell (su wd so : Nat) (e : Expr) : Cell :=
  (List.range wd).map fun i =>
    match e.srcBit i with
    | none => []
    | some j => if j < su then [(so, j)] else []

/-- Symbolic state of an instruction sequence: read offset, write offset, and the origin of every bit written. Not in the code. -/
structure AState where
  so : Nat
  d : Nat
  cells : List Cell
deriving DecidableEq

/-- One instruction on a symbolic state; `none` if it leaves the buffers. Not in the code. -/
def absStep (su wd nS nD : Nat) (a : AState) : Instr → Option AState
  | .put e =>
    if a.so < nS ∧ a.d < nD ∧ a.d = a.cells.length then
      some { a with cells := a.cells ++ [absCell su wd a.so e] }
    else none
  | .bor e =>
    if a.so < nS ∧ a.d < nD ∧ a.d + 1 = a.cells.length then
      some { a with cells := a.cells.dropLast ++
        [List.zipWith (· ++ ·) (a.cells.getD a.d []) (absCell su wd a.so e)] }
    else none
  | .nextDst => some { a with d := a.d + 1 }
  | .nextSrc => some { a with so := a.so + 1 }

/-- A sequence of instructions on a symbolic state. Not in the code. -/
def absRun (su wd nS nD : Nat) : List Instr → AState → Option AState
  | [], a => some a
  | i :: is, a => (absStep su wd nS nD a i).bind (absRun su wd nS nD is)

/-- Value of a bit described by its origins. -/
def bitVal {ws : Nat} (src : Mem ws) (sp0 : Nat) (l : List (Nat × Nat)) : Bool :=
  l.any fun p => (src.get (sp0 + p.1)).getLsbD p.2

/-- The symbolic state describes the state of the machine. Not in the code. -/
structure Rel {ws wd : Nat} (src : Mem ws) (sp0 dp0 : Nat) (m0 : Mem wd) (a : AState)
    (s : St wd) : Prop where
  sp : s.sp = sp0 + a.so
  dp : s.dp = dp0 + a.d
  len : s.dst.len = m0.len
  cell : ∀ j c, a.cells[j]? = some c → c.length = wd ∧
    ∀ t l, c[t]? = some l → (s.dst.get (dp0 + j)).getLsbD t = bitVal src sp0 l
  rest : ∀ i, (i < dp0 ∨ dp0 + a.cells.length ≤ i) → s.dst.get i = m0.get i

theorem absCell_length (su wd so : Nat) (e : Expr) : (absCell su wd so e).length = wd := by
  simp [absCell]

theorem absCell_val {ws wd su : Nat} (hwd : wd ≤ 32) (src : Mem ws)
    (sp0 so : Nat) (hz : ∀ j, su ≤ j → (src.get (sp0 + so)).getLsbD j = false)
    (e : Expr) (t : Nat) (l : List (Nat × Nat))
    (h : (absCell su wd so e)[t]? = some l) :
    ((e.eval ((src.get (sp0 + so)).setWidth 32)).setWidth wd).getLsbD t = bitVal src sp0 l := by
  have ht : t < wd := by
    have := (List.getElem?_eq_some_iff.mp h).1
    rwa [absCell_length] at this
  have hl : l = (match e.srcBit t with
    | none => []
    | some j => if j < su then [(so, j)] else []) := by
    unfold absCell at h
    rw [List.getElem?_map, List.getElem?_range ht] at h
    simpa using h.symm
  rw [BitVec.getLsbD_setWidth, decide_eq_true ht, Bool.true_and,
    Expr.eval_bit _ _ _ (by omega), hl]
  cases hb : e.srcBit t with
  | none => simp [bitVal]
  | some j =>
    simp only [BitVec.getLsbD_setWidth]
    have hj : j < 32 := Expr.srcBit_lt hb
    by_cases hlt : j < su
    · simp [bitVal, hlt, hj]
    · simp [bitVal, hlt, hz j (by omega)]

theorem absStep_sound {ws wd su nS nD : Nat} (hwd : wd ≤ 32) (src : Mem ws)
    (sp0 dp0 : Nat) (m0 : Mem wd) (hS : sp0 + nS ≤ src.len) (hD : dp0 + nD ≤ m0.len)
    (hz : ∀ i, i < sp0 + nS → ∀ j, su ≤ j → (src.get i).getLsbD j = false)
    (a a' : AState) (s : St wd) (i : Instr) (hR : Rel src sp0 dp0 m0 a s)
    (h : absStep su wd nS nD a i = some a') :
    ∃ s', i.exec src s = some s' ∧ Rel src sp0 dp0 m0 a' s' := by
  obtain ⟨so, d, cells⟩ := a
  obtain ⟨hsp, hdp, hlen, hcell, hrest⟩ := hR
  simp only at hsp hdp hcell hrest
  cases i with
  | nextDst =>
    simp only [absStep, Option.some.injEq] at h
    subst h
    exact ⟨_, rfl, ⟨hsp, by simp [hdp]; omega, hlen, hcell, hrest⟩⟩
  | nextSrc =>
    simp only [absStep, Option.some.injEq] at h
    subst h
    exact ⟨_, rfl, ⟨by simp [hsp]; omega, hdp, hlen, hcell, hrest⟩⟩
  | put e =>
    simp only [absStep] at h
    split at h
    · rename_i hc
      obtain ⟨h1, h2, h3⟩ := hc
      simp only [Option.some.injEq] at h
      subst h
      refine ⟨_, by rw [Instr.exec, if_pos ⟨by omega, by omega⟩], ?_⟩
      refine ⟨hsp, hdp, hlen, ?_, ?_⟩
      · intro j c hj
        simp only at hj
        rw [List.getElem?_append] at hj
        split at hj
        · rename_i hjl
          obtain ⟨hcl, hv⟩ := hcell j c hj
          refine ⟨hcl, ?_⟩
          intro t l ht
          simp only [Mem.set]
          rw [if_neg (by omega)]
          exact hv t l ht
        · rename_i hjl
          have hj0 : j = cells.length := by
            have := (List.getElem?_eq_some_iff.mp hj).1
            simp at this
            omega
          subst hj0
          simp at hj
          subst hj
          refine ⟨absCell_length _ _ _ _, ?_⟩
          intro t l ht
          simp only [Mem.set]
          rw [if_pos (by omega), hsp]
          exact absCell_val hwd src sp0 so (hz _ (by omega)) e t l ht
      · intro i hi
        simp only [List.length_append, List.length_singleton] at hi
        simp only [Mem.set]
        rw [if_neg (by omega)]
        exact hrest i (by omega)
    · simp at h
  | bor e =>
    simp only [absStep] at h
    split at h
    · rename_i hc
      obtain ⟨h1, h2, h3⟩ := hc
      simp only [Option.some.injEq] at h
      subst h
      refine ⟨_, by rw [Instr.exec, if_pos ⟨by omega, by omega⟩], ?_⟩
      have hcd : cells[d]? = some (cells.getD d []) := by
        rw [List.getD_eq_getElem?_getD]
        have : d < cells.length := by omega
        simp [this]
      obtain ⟨hol, hov⟩ := hcell d _ hcd
      refine ⟨hsp, hdp, hlen, ?_, ?_⟩
      · intro j c hj
        simp only at hj
        rw [List.getElem?_append] at hj
        simp only [List.length_dropLast] at hj
        split at hj
        · rename_i hjl
          rw [List.getElem?_dropLast, if_pos (by omega)] at hj
          obtain ⟨hcl, hv⟩ := hcell j c hj
          refine ⟨hcl, ?_⟩
          intro t l ht
          simp only [Mem.set]
          rw [if_neg (by omega)]
          exact hv t l ht
        · rename_i hjl
          have hj0 : j = d := by
            have := (List.getElem?_eq_some_iff.mp hj).1
            simp at this
            omega
          subst hj0
          have hjj : j - (cells.length - 1) = 0 := by omega
          rw [hjj] at hj
          simp only [List.getElem?_cons_zero, Option.some.injEq] at hj
          subst hj
          refine ⟨by simp only [List.length_zipWith, absCell_length, hol, Nat.min_self], ?_⟩
          intro t l ht
          rw [List.getElem?_zipWith] at ht
          split at ht
          · rename_i l1 l2 hl1 hl2
            simp only [Option.some.injEq] at ht
            subst ht
            simp only [Mem.set]
            rw [if_pos (by omega), BitVec.getLsbD_or, hdp, hov t l1 hl1, hsp,
              absCell_val hwd src sp0 so (hz _ (by omega)) e t l2 hl2]
            simp [bitVal]
          · simp at ht
      · intro i hi
        simp only [List.length_append, List.length_singleton, List.length_dropLast] at hi
        simp only [Mem.set]
        rw [if_neg (by omega)]
        exact hrest i (by omega)
    · simp at h

theorem absRun_sound {ws wd su nS nD : Nat} (hwd : wd ≤ 32) (src : Mem ws)
    (sp0 dp0 : Nat) (m0 : Mem wd) (hS : sp0 + nS ≤ src.len) (hD : dp0 + nD ≤ m0.len)
    (hz : ∀ i, i < sp0 + nS → ∀ j, su ≤ j → (src.get i).getLsbD j = false) :
    ∀ (is : List Instr) (a a' : AState) (s : St wd), Rel src sp0 dp0 m0 a s →
      absRun su wd nS nD is a = some a' →
      ∃ s', runList src is s = some s' ∧ Rel src sp0 dp0 m0 a' s' := by
  intro is
  induction is with
  | nil =>
    intro a a' s hR h
    simp only [absRun, Option.some.injEq] at h
    subst h
    exact ⟨s, rfl, hR⟩
  | cons i is ih =>
    intro a a' s hR h
    simp only [absRun] at h
    cases h1 : absStep su wd nS nD a i with
    | none => rw [h1] at h; simp at h
    | some a1 =>
      rw [h1] at h
      obtain ⟨s1, he, hR1⟩ := absStep_sound hwd src sp0 dp0 m0 hS hD hz a a1 s i hR h1
      obtain ⟨s2, he2, hR2⟩ := ih a1 a' s1 hR1 h
      exact ⟨s2, by rw [runList, he]; exact he2, hR2⟩

/-- The table of a faithful stream copy: destination cell `c` bit `t < du` is stream bit
`c*du+t`, which is bit `· % su` of source cell `· / su` (or zero when past the `nS` cells). -/
def expected (su du wd nS nD : Nat) : List Cell :=
  (List.range nD).map fun c => (List.range wd).map fun t =>
    if t < du ∧ (c * du + t) / su < nS then [((c * du + t) / su, (c * du + t) % su)] else []

/-- Bit of the stream specification for the whole copy. -/
def streamBit {ws : Nat} (src : Mem ws) (su du nS c t : Nat) : Bool :=
  decide (t < du ∧ (c * du + t) / su < nS) &&
    (src.get ((c * du + t) / su)).getLsbD ((c * du + t) % su)

/-- One straight-line piece that symbolically equals a stream copy is a stream copy. -/
theorem piece_sound {ws wd su du nS nD so d : Nat} (hwd : wd ≤ 32) (hsu : 0 < su)
    (src : Mem ws) (sp0 dp0 : Nat) (hal : sp0 * su = dp0 * du) (m0 : Mem wd)
    (hS : sp0 + nS ≤ src.len) (hD : dp0 + nD ≤ m0.len)
    (hz : ∀ i, i < sp0 + nS → ∀ j, su ≤ j → (src.get i).getLsbD j = false)
    (is : List Instr)
    (h : absRun su wd nS nD is ⟨0, 0, []⟩ = some ⟨so, d, expected su du wd nS nD⟩) :
    ∃ s', runList src is ⟨sp0, dp0, m0⟩ = some s' ∧ s'.sp = sp0 + so ∧ s'.dp = dp0 + d ∧
      s'.dst.len = m0.len ∧
      (∀ j, j < nD → ∀ t, t < wd →
        (s'.dst.get (dp0 + j)).getLsbD t = streamBit src su du (sp0 + nS) (dp0 + j) t) ∧
      (∀ i, (i < dp0 ∨ dp0 + nD ≤ i) → s'.dst.get i = m0.get i) := by
  obtain ⟨s', he, hR⟩ := absRun_sound hwd src sp0 dp0 m0 hS hD hz is ⟨0, 0, []⟩ _
    ⟨sp0, dp0, m0⟩ ⟨rfl, rfl, rfl, by simp, by simp⟩ h
  refine ⟨s', he, hR.sp, hR.dp, hR.len, ?_, ?_⟩
  · intro j hj t ht
    have h1 : (expected su du wd nS nD)[j]? = some ((List.range wd).map fun t =>
      if t < du ∧ (j * du + t) / su < nS then [((j * du + t) / su, (j * du + t) % su)] else []) := by
      unfold expected
      rw [List.getElem?_map, List.getElem?_range hj]; rfl
    obtain ⟨_, h2⟩ := hR.cell j _ h1
    rw [h2 t (if t < du ∧ (j * du + t) / su < nS then
      [((j * du + t) / su, (j * du + t) % su)] else [])
      (by rw [List.getElem?_map, List.getElem?_range ht]; rfl)]
    have e1 : (dp0 + j) * du + t = (j * du + t) + sp0 * su := by
      rw [Nat.add_mul, hal]; omega
    unfold streamBit
    rw [e1, Nat.add_mul_div_right _ _ hsu, Nat.add_mul_mod_self_right]
    by_cases hc : t < du ∧ (j * du + t) / su < nS
    · have hc' : t < du ∧ (j * du + t) / su + sp0 < sp0 + nS := ⟨hc.1, by omega⟩
      rw [if_pos hc, decide_eq_true hc']
      simp [bitVal, Nat.add_comm]
    · have hc' : ¬ (t < du ∧ (j * du + t) / su + sp0 < sp0 + nS) := by
        intro hx; exact hc ⟨hx.1, by omega⟩
      rw [if_neg hc, decide_eq_false hc']
      simp [bitVal]
  · intro i hi
    apply hR.rest
    simpa [expected] using hi

theorem streamBit_mono {ws : Nat} (src : Mem ws) {su du nS nS' c t nD : Nat}
    (hsu : 0 < su) (hal : nS * su = nD * du) (hc : c < nD) (hle : nS ≤ nS') :
    streamBit src su du nS c t = streamBit src su du nS' c t := by
  unfold streamBit
  by_cases ht : t < du
  · have h1 : (c * du + t) / su < nS := by
      rw [Nat.div_lt_iff_lt_mul hsu, hal]
      have : (c + 1) * du ≤ nD * du := Nat.mul_le_mul_right _ hc
      rw [Nat.add_mul] at this
      omega
    rw [decide_eq_true ⟨ht, h1⟩, decide_eq_true ⟨ht, by omega⟩]
  · simp [ht]

theorem loop_sound {ws wd su du gs gd : Nat} (hwd : wd ≤ 32) (hsu : 0 < su)
    (hg : gs * su = gd * du) (body : List Instr)
    (h : absRun su wd gs gd body ⟨0, 0, []⟩ = some ⟨gs, gd, expected su du wd gs gd⟩)
    (src : Mem ws) :
    ∀ (k k0 : Nat) (m0 : Mem wd), (k0 + k) * gs ≤ src.len → (k0 + k) * gd ≤ m0.len →
      (∀ i, i < (k0 + k) * gs → ∀ j, su ≤ j → (src.get i).getLsbD j = false) →
      ∃ s', runLoop src body k ⟨k0 * gs, k0 * gd, m0⟩ = some s' ∧
        s'.sp = (k0 + k) * gs ∧ s'.dp = (k0 + k) * gd ∧ s'.dst.len = m0.len ∧
        (∀ c, k0 * gd ≤ c → c < (k0 + k) * gd → ∀ t, t < wd →
          (s'.dst.get c).getLsbD t = streamBit src su du ((k0 + k) * gs) c t) ∧
        (∀ i, (i < k0 * gd ∨ (k0 + k) * gd ≤ i) → s'.dst.get i = m0.get i) := by
  intro k
  induction k with
  | zero =>
    intro k0 m0 _ _ _
    refine ⟨_, rfl, by simp, by simp, rfl, ?_, ?_⟩
    · intro c h1 h2
      simp at h2
      omega
    · intro i _; rfl
  | succ k ih =>
    intro k0 m0 hS hD hz
    have e0 : k0 + (k + 1) = k0 + 1 + k := by omega
    rw [e0] at hS hD hz ⊢
    have eS : (k0 + 1) * gs = k0 * gs + gs := by rw [Nat.add_mul, Nat.one_mul]
    have eD : (k0 + 1) * gd = k0 * gd + gd := by rw [Nat.add_mul, Nat.one_mul]
    have lS : (k0 + 1) * gs ≤ (k0 + 1 + k) * gs := Nat.mul_le_mul_right _ (by omega)
    have lD : (k0 + 1) * gd ≤ (k0 + 1 + k) * gd := Nat.mul_le_mul_right _ (by omega)
    have hal : k0 * gs * su = k0 * gd * du := by rw [Nat.mul_assoc, hg, Nat.mul_assoc]
    obtain ⟨s1, he1, h1sp, h1dp, h1len, h1b, h1r⟩ :=
      piece_sound hwd hsu src (k0 * gs) (k0 * gd) hal m0 (by omega) (by omega)
        (fun i hi => hz i (by omega)) body h
    obtain ⟨s2, he2, h2sp, h2dp, h2len, h2b, h2r⟩ := ih (k0 + 1) s1.dst hS (by rw [h1len]; exact hD) hz
    refine ⟨s2, ?_, h2sp, h2dp, by rw [h2len, h1len], ?_, ?_⟩
    · rw [runLoop, he1]
      have : s1 = ⟨(k0 + 1) * gs, (k0 + 1) * gd, s1.dst⟩ := by
        obtain ⟨a, b, c⟩ := s1
        simp only at h1sp h1dp
        subst h1sp h1dp
        rw [eS, eD]
      show runLoop src body k s1 = _
      rw [this]
      exact he2
    · intro c hc1 hc2 t ht
      by_cases hlt : c < (k0 + 1) * gd
      · rw [h2r c (Or.inl hlt)]
        obtain ⟨j, rfl⟩ := Nat.exists_eq_add_of_le hc1
        rw [h1b j (by omega) t ht]
        exact streamBit_mono src (nD := (k0 + 1) * gd) hsu
          (by rw [← eS, Nat.mul_assoc, hg, Nat.mul_assoc]) hlt (by rw [← eS]; exact lS)
      · exact h2b c (by omega) hc2 t ht
    · intro i hi
      rw [h2r i (by omega), h1r i (by omega)]

theorem runList_append {ws wd : Nat} (src : Mem ws) (l1 l2 : List Instr) (s : St wd) :
    runList src (l1 ++ l2) s = (runList src l1 s).bind (runList src l2) := by
  induction l1 generalizing s with
  | nil => rfl
  | cons i is ih =>
    simp only [List.cons_append, runList]
    cases i.exec src s with
    | none => rfl
    | some s1 => exact ih s1

theorem runTail_eq {ws wd : Nat} (src : Mem ws) (n : Nat) :
    ∀ (cs : List (List Instr)) (pos : Nat) (s : St wd), pos ≤ n →
      runTail src n cs pos s = runList src (cs.take (n - pos)).flatten s := by
  intro cs
  induction cs with
  | nil => intro pos s _; simp [runTail, runList]
  | cons c cs ih =>
    intro pos s hp
    by_cases h : pos = n
    · subst h; simp [runTail, runList]
    · have e : n - pos = (n - (pos + 1)) + 1 := by omega
      rw [runTail, if_pos h, e, List.take_succ_cons, List.flatten_cons, runList_append]
      congr 1
      funext s1
      exact ih (pos + 1) s1 (by omega)

/-- Executable check that a program is a stream copy from `su`-bit to `du`-bit cells: `gs` source and
`gd` destination cells per group; `needS r`/`needD r` cells for a tail of `r` symbols. -/
def check (p : Prog) (su du wd gs gd : Nat) (needS needD : Nat → Nat) : Bool :=
  decide (0 < p.group) && decide (gs * su = gd * du) && decide (0 < su) &&
  decide (absRun su wd gs gd p.body ⟨0, 0, []⟩ = some ⟨gs, gd, expected su du wd gs gd⟩) &&
  (List.range p.group).all fun r =>
    match absRun su wd (needS r) (needD r) (p.tail.take r).flatten ⟨0, 0, []⟩ with
    | none => false
    | some a => decide (a.cells = expected su du wd (needS r) (needD r))

theorem check_sound {ws wd su du gs gd : Nat} {needS needD : Nat → Nat} (hwd : wd ≤ 32) (p : Prog) (h : check p su du wd gs gd needS needD = true)
    (src : Mem ws) (dst : Mem wd) (n : Nat)
    (hS : n / p.group * gs + needS (n % p.group) ≤ src.len)
    (hD : n / p.group * gd + needD (n % p.group) ≤ dst.len)
    (hz : ∀ i, i < n / p.group * gs + needS (n % p.group) →
      ∀ j, su ≤ j → (src.get i).getLsbD j = false) :
    ∃ m, p.run src dst n = some m ∧ m.len = dst.len ∧
      (∀ c, c < n / p.group * gd + needD (n % p.group) → ∀ t, t < wd →
        (m.get c).getLsbD t =
          streamBit src su du (n / p.group * gs + needS (n % p.group)) c t) ∧
      (∀ c, n / p.group * gd + needD (n % p.group) ≤ c → m.get c = dst.get c) := by
  simp only [check, Bool.and_eq_true, decide_eq_true_eq, List.all_eq_true, List.mem_range] at h
  obtain ⟨⟨⟨⟨hg0, hg⟩, hsu⟩, hbody⟩, htail⟩ := h
  obtain ⟨s1, he1, h1sp, h1dp, h1len, h1b, h1r⟩ :=
    loop_sound hwd hsu hg p.body hbody src (n / p.group) 0 dst (by rw [Nat.zero_add]; omega)
      (by rw [Nat.zero_add]; omega)
      (fun i hi => hz i (by rw [Nat.zero_add] at hi; omega))
  simp only [Nat.zero_add, Nat.zero_mul] at he1 h1sp h1dp h1b h1r
  have hr : n % p.group < p.group := Nat.mod_lt _ hg0
  have ht := htail _ hr
  cases hA : absRun su wd (needS (n % p.group)) (needD (n % p.group))
      (p.tail.take (n % p.group)).flatten ⟨0, 0, []⟩ with
  | none => rw [hA] at ht; simp at ht
  | some a =>
    rw [hA] at ht
    simp only [decide_eq_true_eq] at ht
    obtain ⟨so, d, cells⟩ := a
    simp only at ht
    subst ht
    obtain ⟨s2, he2, _, _, h2len, h2b, h2r⟩ :=
      piece_sound hwd hsu src (n / p.group * gs) (n / p.group * gd)
        (by rw [Nat.mul_assoc, hg, Nat.mul_assoc]) s1.dst hS (by rw [h1len]; exact hD) hz _ hA
    have hpos : n / p.group * p.group ≤ n := Nat.div_mul_le_self _ _
    have hsub : n - n / p.group * p.group = n % p.group := by
      have := Nat.div_add_mod n p.group
      rw [Nat.mul_comm] at this
      omega
    have hs1 : s1 = ⟨n / p.group * gs, n / p.group * gd, s1.dst⟩ := by
      obtain ⟨x, y, z⟩ := s1
      simp only at h1sp h1dp
      subst h1sp h1dp
      rfl
    refine ⟨s2.dst, ?_, by rw [h2len, h1len], ?_, ?_⟩
    · unfold Prog.run
      simp only [he1]
      rw [runTail_eq _ _ _ _ _ hpos, hsub, hs1, he2]
    · intro c hc t htw
      by_cases hlt : c < n / p.group * gd
      · rw [h2r c (Or.inl hlt), h1b c (Nat.zero_le _) hlt t htw]
        exact streamBit_mono src (nD := n / p.group * gd) hsu
          (by rw [Nat.mul_assoc, hg, Nat.mul_assoc]) hlt (by omega)
      · obtain ⟨j, rfl⟩ := Nat.exists_eq_add_of_le (Nat.le_of_not_lt hlt)
        exact h2b j (by omega) t htw
    · intro c hc
      rw [h2r c (Or.inr hc), h1r c (by omega)]

/-! The checks themselves. They run over complete programs (all loop bodies and all tails). -/

/-- number of bytes of a tail of `r` symbols of `b` bits -/
def tb (b r : Nat) : Nat := (r * b + 7) / 8

theorem chk_pack2 : check pack2 2 8 8 4 1 id (tb 2) = true := by decide +kernel
theorem chk_pack3 : check pack3 3 8 8 8 3 id (tb 3) = true := by decide +kernel
theorem chk_pack4 : check pack4 4 8 8 2 1 id (tb 4) = true := by decide +kernel
theorem chk_pack6 : check pack6 6 8 8 4 3 id (tb 6) = true := by decide +kernel
theorem chk_pack8 : check pack8 8 8 8 1 1 id (tb 8) = true := by decide +kernel
theorem chk_pack10 : check pack10 10 8 8 4 5 id (tb 10) = true := by decide +kernel
theorem chk_pack12 : check pack12 12 8 8 2 3 id (tb 12) = true := by decide +kernel
theorem chk_pack16 : check pack16 16 8 8 1 2 id (tb 16) = true := by decide +kernel
theorem chk_unpack2 : check unpack2 8 2 32 1 4 (tb 2) id = true := by decide +kernel
theorem chk_unpack3 : check unpack3 8 3 32 3 8 (tb 3) id = true := by decide +kernel
theorem chk_unpack4 : check unpack4 8 4 32 1 2 (tb 4) id = true := by decide +kernel
theorem chk_unpack6 : check unpack6 8 6 32 3 4 (tb 6) id = true := by decide +kernel
theorem chk_unpack8 : check unpack8 8 8 32 1 1 (tb 8) id = true := by decide +kernel
theorem chk_unpack10 : check unpack10 8 10 32 5 4 (tb 10) id = true := by decide +kernel
theorem chk_unpack12 : check unpack12 8 12 32 3 2 (tb 12) id = true := by decide +kernel
theorem chk_unpack16 : check unpack16 8 16 32 2 1 (tb 16) id = true := by decide +kernel

end Dysco.BytePacker
