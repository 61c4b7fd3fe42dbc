import Verif.LockLemmas

/-!
# C130: the calls of the manager are single steps

Every run of the model of `LockModel`, in which also the calls of the manager may be interrupted, gives what some run of
`MStmtModel` gives, and nothing is written in the wrong place.
-/

namespace Dysco.Lock
open Col Multi Stmt MStmt
variable {K : Type} {c : Nat} {W : Fin c → Type} {P : (i : Fin c) → Params (W i) K}
variable {k : K} {rows nB : Nat} {file : (i : Fin c) → Nat → Option (Rows (W i))} {prog : List (MOp W)}

/-- What is known of the states of `MStmtModel` that can be reached. -/
structure Facts (A : MSState P) : Prop where
  /-- a thread that writes has an item in the cache -/
  item : ∀ i t b r, (A.cols i).threads t = .write b r → (A.cols i).d.cache ≠ []
  /-- no thread writes while the header is written -/
  alone : calls A = some .header → ∀ i t b r, (A.cols i).threads t ≠ .write b r

theorem calls_header {A : MSState P} (h : calls A = some .header) : ∃ i row v, A.pc = .header i row v := by
  unfold calls at h
  split at h
  · split at h
    · split at h <;> cases h
    · cases h
  · split at h <;> cases h
  · split at h <;> cases h
  · rename_i hp; exact ⟨_, _, _, hp⟩
  · cases h

theorem facts (hn : ∀ i, 0 < (P i).threads) {ls : List (MLabel P)} {A : MSState P}
    (e : msrun (msinitial P k rows file nB prog) ls = some A) : Facts A := by
  have item : ∀ i t b r, (A.cols i).threads t = .write b r → (A.cols i).d.cache ≠ [] := by
    intro i t b r h hc
    have := (mnever_dangling hn e i t).2.1 b r h
    rw [hc] at this
    cases this
  refine ⟨item, fun hc i t b r h => item i t b r h ?_⟩
  obtain ⟨S, t', h1, h2⟩ := mrel_reach hn e
  obtain ⟨j, row, v, hp⟩ := calls_header hc
  have h3 := (header_alone hn h1 (.inr ⟨j, row, v, by rw [h2.pc, hp]⟩) i t).1
  have h4 := congrArg State.cache (h2.abs i)
  exact h4.symm.trans h3

/-! ## The relation -/

/-- `A` is the state of `MStmtModel` that belongs to `G`. -/
structure LRel (G : LState P) (A : MSState P) : Prop where
  same : Same G.F A
  good : G.bad = false
  nBlocks : (∀ i t, G.threads i t = .out ∨ G.threads i t = .locked) → G.F.nBlocks = A.nBlocks
  thread : ∀ i t, G.threads i t ≠ .out ↔ G.owner = some (some ⟨i, t⟩)
  holds : G.client.holds = true ↔ G.owner = some none
  write : ∀ i t, G.threads i t ≠ .out → ∃ b r, (A.cols i).threads t = .write b r ∧
    (G.threads i t = .counted ∨ G.threads i t = .sought → G.F.nBlocks = raise A.nBlocks b) ∧
    (G.threads i t = .sought → G.pos = some (i, b))
  count : G.client = .count → calls A = some .count ∨ ∃ i k, calls A = some (.load i k)
  load : G.client = .found ∨ G.client = .readLocked ∨ G.client = .readSought →
    ∃ i k, calls A = some (.load i k) ∧ k.row / A.rowsPerBlock < A.nBlocks ∧
      (G.client = .readSought → G.pos = some (i, k.row / A.rowsPerBlock))
  header : G.client = .header → calls A = some .header ∧ G.pos = none

section step
variable {G G' : LState P} {F' A A' : MSState P}

/-- A statement outside the calls of the manager. -/
theorem lrel_alike (h : LRel G A) (hs : Same F' A') (h1 : F'.nBlocks = G.F.nBlocks) (h2 : A'.nBlocks = A.nBlocks)
    (hw : ∀ i t b r, G.threads i t ≠ .out → (A.cols i).threads t = .write b r → (A'.cols i).threads t = .write b r)
    (hc : G.client = .out ∨ (∀ q, calls A = some q → calls A' = some q) ∧ A'.rowsPerBlock = A.rowsPerBlock) :
    LRel { G with F := F' } A' := by
  refine ⟨hs, h.good, fun ht => ?_, h.thread, h.holds, fun i t ht => ?_, fun hx => ?_, fun hx => ?_, fun hx => ?_⟩
  · rw [h2]; exact h1.trans (h.nBlocks ht)
  · obtain ⟨b, r, h3, h4, h5⟩ := h.write i t ht
    exact ⟨b, r, hw i t b r ht h3, fun hx => by rw [h2]; exact h1.trans (h4 hx), h5⟩
  · rcases hc with hc | hc
    · rw [show G.client = .count from hx] at hc; cases hc
    · exact (h.count hx).imp (hc.1 _) fun ⟨i, k, h3⟩ => ⟨i, k, hc.1 _ h3⟩
  · rcases hc with hc | hc
    · rcases hx with hx | hx | hx
      · rw [show G.client = _ from hx] at hc; cases hc
      · rw [show G.client = _ from hx] at hc; cases hc
      · rw [show G.client = _ from hx] at hc; cases hc
    · obtain ⟨i, k, h3, h4, h5⟩ := h.load hx
      rw [← h2, ← hc.2] at h4
      rw [← hc.2] at h5
      exact ⟨i, k, hc.1 _ h3, h4, h5⟩
  · rcases hc with hc | hc
    · rw [show G.client = _ from hx] at hc; cases hc
    · exact ⟨hc.1 _ (h.header hx).1, (h.header hx).2⟩

theorem client_keeps (hf : Facts A) {junk : (i : Fin c) → Nat → W i} (e : msstep A (.client junk) = some A') (i : Fin c)
    (t : Fin (P i).threads) (b : Nat) (r : Rows (W i)) (h : (A.cols i).threads t = .write b r) :
    (A'.cols i).threads t = .write b r := by
  have hset : ∀ {j : Fin c} {f : SState (W j) K (P j).threads} {B : MSState P}, B.cols = Function.update A.cols j f →
      (∀ u b r, (A.cols j).threads u = .write b r → f.threads u = .write b r) → (B.cols i).threads t = .write b r := by
    intro j f B hB hj
    rw [hB]
    by_cases hij : i = j
    · subst hij; rw [Function.update_self]; exact hj t b r h
    · rw [Function.update_of_ne hij]; exact h
  simp only [msstep] at e
  unfold MSState.client at e
  split at e
  · split at e
    · cases e
    · split at e
      · injection e with e; subst e; exact h
      · injection e with e; subst e; exact hset rfl fun _ _ _ hx => hx
    · injection e with e; subst e; exact hset rfl fun _ _ _ hx => hx
    · injection e with e; subst e; exact h
  · rename_i j hp
    obtain ⟨f, e1, e2⟩ := Option.map_eq_some_iff.mp e
    subst e2
    exact hset rfl fun u b r hx => client_threads rfl e1 hx
  · split at e
    · rename_i hk
      split at e
      · injection e with e; subst e; exact h
      · rename_i hc
        injection e with e
        subst e
        refine hset rfl fun u b r hx => ?_
        exact absurd (hf.item _ u b r hx) (by simpa using hc)
    · injection e with e; subst e; exact h
  · injection e with e; subst e; exact hset rfl fun _ _ _ hx => hx
  · split at e
    · injection e with e; subst e; exact hset rfl fun _ _ _ hx => hx
    · injection e with e; subst e; exact h
  · obtain ⟨f, e1, e2⟩ := Option.map_eq_some_iff.mp e
    subst e2
    exact hset rfl fun u b r hx => client_threads rfl e1 hx
  · cases e
  · cases e
  · cases e

theorem calls_set {i : Fin c} {f : SState (W i) K (P i).threads} {q : Call W}
    (hl : ∀ k, (A.cols i).client = .load k → f.client = .load k) (h : calls A = some q) : calls (A.set i f) = some q := by
  have hl' : ∀ j k, (A.cols j).client = .load k → ((A.set i f).cols j).client = .load k := by
    intro j k hk
    show ((Function.update A.cols i f) j).client = _
    by_cases hj : j = i
    · subst hj; rw [Function.update_self]; exact hl k hk
    · rw [Function.update_of_ne hj]; exact hk
  unfold calls at h ⊢
  have hp : (A.set i f).pc = A.pc := rfl
  have ht : (A.set i f).todo = A.todo := rfl
  have hr : (A.set i f).rowsPerBlock = A.rowsPerBlock := rfl
  rw [hp, ht, hr]
  cases hc : A.pc with
  | call j =>
    rw [hc] at h
    simp only at h ⊢
    cases hk : (A.cols j).client <;> rw [hk] at h <;> first | (cases h; done) | skip
    rw [hl' j _ hk]
    exact h
  | closing j =>
    rw [hc] at h
    simp only at h ⊢
    cases hk : (A.cols j).client <;> rw [hk] at h <;> first | (cases h; done) | skip
    rw [hl' j _ hk]
    exact h
  | _ => rw [hc] at h; exact h

theorem thread_keeps_all {i : Fin c} {t : Fin (P i).threads} (e : msstep A (.thread i t) = some A') :
    (∀ j u b r, (⟨j, u⟩ : (i : Fin c) × Fin (P i).threads) ≠ ⟨i, t⟩ → (A.cols j).threads u = .write b r →
      (A'.cols j).threads u = .write b r) ∧
    (∀ q, calls A = some q → calls A' = some q) ∧ A'.rowsPerBlock = A.rowsPerBlock := by
  obtain ⟨f, e1, e2⟩ := Option.map_eq_some_iff.mp e
  subst e2
  obtain ⟨h1, h2⟩ := thread_keeps e1
  refine ⟨fun j u b r hne h => ?_, fun q => calls_set h2, rfl⟩
  show ((Function.update A.cols i f) j).threads u = _
  by_cases hj : j = i
  · subst hj
    rw [Function.update_self]
    exact h1 u (fun hu => hne (by rw [hu])) b r h
  · rw [Function.update_of_ne hj]; exact h

theorem spurious_keeps {i : Fin c} {f : SState (W i) K (P i).threads}
    (h1 : ∀ u b r, (A.cols i).threads u = .write b r → f.threads u = .write b r)
    (h2 : ∀ k, (A.cols i).client = .load k → f.client = .load k) :
    (∀ j u b r, (A.cols j).threads u = .write b r → ((A.set i f).cols j).threads u = .write b r) ∧
    (∀ q, calls A = some q → calls (A.set i f) = some q) ∧ (A.set i f).rowsPerBlock = A.rowsPerBlock := by
  refine ⟨fun j u b r h => ?_, fun q => calls_set h2, rfl⟩
  show ((Function.update A.cols i f) j).threads u = _
  by_cases hj : j = i
  · subst hj
    rw [Function.update_self]
    exact h1 u b r h
  · rw [Function.update_of_ne hj]; exact h

/-! ## Who is in the manager -/

theorem setT_self (G : LState P) (i : Fin c) (t : Fin (P i).threads) (s : Stage) : (G.setT i t s).threads i t = s := by
  simp only [LState.setT, Function.update_self]

theorem setT_ne (G : LState P) (i : Fin c) (t : Fin (P i).threads) (s : Stage) {j : Fin c} {u : Fin (P j).threads}
    (h : (⟨j, u⟩ : (i : Fin c) × Fin (P i).threads) ≠ ⟨i, t⟩) : (G.setT i t s).threads j u = G.threads j u := by
  simp only [LState.setT]
  by_cases hj : j = i
  · subst hj
    rw [Function.update_self, Function.update_of_ne]
    intro hu
    exact h (by rw [hu])
  · rw [Function.update_of_ne hj]

theorem LRel.free (h : LRel G A) (ho : G.owner = none ∨ G.owner = some none) (i : Fin c) (t : Fin (P i).threads) :
    G.threads i t = .out := by
  by_contra hx
  have := (h.thread i t).mp hx
  rcases ho with ho | ho <;> rw [ho] at this <;> cases this

theorem LRel.quiet (h : LRel G A) (ho : G.owner ≠ some none) : G.client.holds = false := by
  cases hx : G.client.holds with
  | false => rfl
  | true => exact absurd (h.holds.mp hx) ho

theorem LRel.others (h : LRel G A) {i : Fin c} {t : Fin (P i).threads} (ho : G.threads i t ≠ .out) {j : Fin c}
    {u : Fin (P j).threads} (hne : (⟨j, u⟩ : (i : Fin c) × Fin (P i).threads) ≠ ⟨i, t⟩) : G.threads j u = .out := by
  by_contra hx
  have h1 := (h.thread i t).mp ho
  rw [(h.thread j u).mp hx] at h1
  injection h1 with h1
  injection h1 with h1
  exact hne h1

theorem acquire_is {H : LState P} {who : Option ((i : Fin c) × Fin (P i).threads)} (e : G.acquire who H = some G') :
    G.owner = none ∧ G' = { H with owner := some who } := by
  unfold LState.acquire at e
  split at e
  · rename_i ho
    injection e with e
    exact ⟨ho, e.symm⟩
  · cases e

/-- Views are equal if the numbers of blocks are. -/
theorem Same.eq {F : MSState P} (h : Same F A) (hn : F.nBlocks = A.nBlocks) (i : Fin c) : F.view i = A.view i := by
  rw [h.view i, hn]
  rfl

/-- The client returns from a call of the manager with the mutex. -/
theorem lrel_release (h : LRel G A) (ho : G.owner = some none) (hs : Same F' A') (hn : F'.nBlocks = A'.nBlocks) :
    LRel { G with F := F', owner := none, client := .out } A' := by
  have hout := h.free (.inr ho)
  exact
    { same := hs
      good := h.good
      nBlocks := fun _ => hn
      thread := fun i t => ⟨fun hx => absurd (hout i t) hx, fun hx => by cases hx⟩
      holds := ⟨fun hx => (by cases hx), fun hx => (by cases hx)⟩
      write := fun i t hx => absurd (hout i t) hx
      count := fun hx => by cases hx
      load := fun hx => by rcases hx with hx | hx | hx <;> cases hx
      header := fun hx => by cases hx }

/-- The client is in no call of the manager. -/
theorem lrel_out (h : LRel G A) (ho : G.client.holds = false) : LRel { G with client := .out } A :=
  { same := h.same
    good := h.good
    nBlocks := h.nBlocks
    thread := h.thread
    holds := ⟨fun hx => (by cases hx), fun hx => by
      have := h.holds.mpr hx
      rw [ho] at this
      cases this⟩
    write := h.write
    count := fun hx => by cases hx
    load := fun hx => by rcases hx with hx | hx | hx <;> cases hx
    header := fun hx => by cases hx }

/-- The client goes on to a place in which it has the mutex. -/
theorem lrel_client (h : LRel G A) (hout : ∀ i t, G.threads i t = .out) {s : CStage} {pos : Option (Fin c × Nat)}
    (hs : s = .count ∧ (calls A = some .count ∨ ∃ i k, calls A = some (.load i k)) ∨
      (s = .readLocked ∨ s = .readSought) ∧ ∃ i k, calls A = some (.load i k) ∧ k.row / A.rowsPerBlock < A.nBlocks ∧
        (s = .readSought → pos = some (i, k.row / A.rowsPerBlock))) :
    LRel { G with client := s, owner := some none, pos := pos } A := by
  refine
    { same := h.same
      good := h.good
      nBlocks := h.nBlocks
      thread := fun i t => ⟨fun hx => absurd (hout i t) hx, fun hx => by cases hx⟩
      holds := ⟨fun _ => rfl, fun _ => ?_⟩
      write := fun i t hx => absurd (hout i t) hx
      count := fun hx => ?_
      load := fun hx => ?_
      header := fun hx => ?_ }
  · rcases hs with ⟨rfl, _⟩ | ⟨rfl | rfl, _⟩ <;> rfl
  · rcases hs with hs | hs
    · exact hs.2
    · rw [show s = .count from hx] at hs
      rcases hs.1 with hs | hs <;> cases hs
  · rcases hs with hs | hs
    · rw [hs.1] at hx
      rcases hx with hx | hx | hx <;> cases hx
    · exact hs.2
  · rw [show s = .header from hx] at hs
    rcases hs with ⟨hs, _⟩ | ⟨hs | hs, _⟩ <;> cases hs

/-- A thread goes on to a place in which it has the mutex. -/
theorem lrel_thread (hf : Facts A) (h : LRel G A) {i : Fin c} {t : Fin (P i).threads} {b : Nat} {r : Rows (W i)}
    (hw : (A.cols i).threads t = .write b r)
    (hout : ∀ j u, (⟨j, u⟩ : (i : Fin c) × Fin (P i).threads) ≠ ⟨i, t⟩ → G.threads j u = .out)
    (hq : G.client.holds = false) {s : Stage} (hs : s ≠ .out) {H : LState P} (hF : Same H.F A)
    (hT : H.threads = (G.setT i t s).threads) (hO : H.owner = some (some ⟨i, t⟩)) (hC : H.client = G.client)
    (hB : H.bad = G.bad) (h1 : s = .locked → H.F.nBlocks = A.nBlocks)
    (h2 : s = .counted ∨ s = .sought → H.F.nBlocks = raise A.nBlocks b) (h3 : s = .sought → H.pos = some (i, b)) :
    LRel H A := by
  have hself : H.threads i t = s := by rw [hT, setT_self]
  have hne : ∀ j u, (⟨j, u⟩ : (i : Fin c) × Fin (P i).threads) ≠ ⟨i, t⟩ → H.threads j u = .out := fun j u hx => by
    rw [hT, setT_ne _ _ _ _ hx, hout j u hx]
  have hall : ∀ j u, H.threads j u ≠ .out → (⟨j, u⟩ : (i : Fin c) × Fin (P i).threads) = ⟨i, t⟩ := fun j u hx => by
    by_contra hy
    exact hx (hne j u hy)
  refine
    { same := hF
      good := by rw [hB]; exact h.good
      nBlocks := fun hx => ?_
      thread := fun j u => ⟨fun hx => by rw [hO, hall j u hx], fun hx => ?_⟩
      holds := ⟨fun hx => ?_, fun hx => by rw [hO] at hx; cases hx⟩
      write := fun j u hx => ?_
      count := fun hx => ?_
      load := fun hx => ?_
      header := fun hx => ?_ }
  · have := hx i t
    rw [hself] at this
    rcases this with this | this
    · exact absurd this hs
    · exact h1 this
  · rw [hO] at hx
    injection hx with hx
    injection hx with hx
    injection hx with e1 e2
    subst e1
    rw [← eq_of_heq e2, hself]
    exact hs
  · rw [hC, hq] at hx; cases hx
  · have hx := hall j u hx
    injection hx with e1 e2
    subst e1
    rw [eq_of_heq e2, hself]
    exact ⟨b, r, hw, h2, h3⟩
  · rw [hC] at hx; rw [hx] at hq; cases hq
  · rw [hC] at hx ⊢
    obtain ⟨i', k', h4, h5, _⟩ := h.load hx
    refine ⟨i', k', h4, h5, fun hy => ?_⟩
    rw [hy] at hq
    cases hq
  · rw [hC] at hx
    exact absurd hw (hf.alone (h.header hx).1 i t b r)

/-! ## The simulation -/

/-- Steps of a thread that are left within its call of the manager. Not in the code. -/
def Stage.rank : Stage → Nat
  | .out => 3
  | .locked => 2
  | .counted => 1
  | .sought => 0

/-- Steps of the client that are left within its call of the manager. Not in the code. -/
def CStage.rank : CStage → Nat
  | .out => 4
  | .count => 3
  | .header => 3
  | .found => 2
  | .readLocked => 1
  | .readSought => 0

/-- A bound for the number of statements in the manager before the next step of `MStmtModel`. -/
def LState.rank (G : LState P) : Nat :=
  (∑ x : (i : Fin c) × Fin (P i).threads, (G.threads x.1 x.2).rank) + G.client.rank

theorem rank_setT {H : LState P} {i : Fin c} {t : Fin (P i).threads} {s : Stage} (hT : H.threads = (G.setT i t s).threads)
    (hC : H.client = G.client) : H.rank + (G.threads i t).rank = G.rank + s.rank := by
  have h1 : ∀ x : (i : Fin c) × Fin (P i).threads, x ≠ ⟨i, t⟩ → (H.threads x.1 x.2).rank = (G.threads x.1 x.2).rank := by
    intro x hx
    rw [hT, setT_ne G i t s hx]
  unfold LState.rank
  rw [← Finset.add_sum_erase Finset.univ _ (Finset.mem_univ (⟨i, t⟩ : (i : Fin c) × Fin (P i).threads)),
    ← Finset.add_sum_erase Finset.univ (fun x : (i : Fin c) × Fin (P i).threads => (G.threads x.1 x.2).rank)
      (Finset.mem_univ (⟨i, t⟩ : (i : Fin c) × Fin (P i).threads)),
    Finset.sum_congr rfl fun x hx => h1 x (Finset.ne_of_mem_erase hx), hC]
  simp only [hT, setT_self]
  omega

/-- What a statement is in `MStmtModel`: nothing yet, or the same statement. -/
def LSim (G G' : LState P) (A : MSState P) (l : MLabel P) : Prop :=
  ∃ A', LRel G' A' ∧ (A' = A ∧ l.real = true ∧ G'.rank + 1 ≤ G.rank ∨
    msstep A l = some A' ∧ (l.real = false → G'.rank = G.rank))

theorem busy_calls (h : LRel G A) (hc : G.client ≠ .out) : calls A ≠ none := by
  intro hx
  cases hg : G.client with
  | out => exact hc hg
  | count => rcases h.count hg with h1 | ⟨i, k, h1⟩ <;> rw [hx] at h1 <;> cases h1
  | found => obtain ⟨i, k, h1, _⟩ := h.load (.inl hg); rw [hx] at h1; cases h1
  | readLocked => obtain ⟨i, k, h1, _⟩ := h.load (.inr (.inl hg)); rw [hx] at h1; cases h1
  | readSought => obtain ⟨i, k, h1, _⟩ := h.load (.inr (.inr hg)); rw [hx] at h1; cases h1
  | header => have h1 := (h.header hg).1; rw [hx] at h1; cases h1

/-- The client loads a block in one step. -/
theorem load_step {i : Fin c} {k : Next (W i)} (hc : calls A = some (.load i k)) (junk : (i : Fin c) → Nat → W i) :
    msstep A (.client junk) = some (loaded A i k (junk i)
      (if k.row / A.rowsPerBlock < A.nBlocks then some (some (k.row / A.rowsPerBlock)) else none)) := by
  have key : (State.loadBlock (P i) (A.view i).d (k.row / A.rowsPerBlock) (junk i)) =
      loadWith (P i) (A.view i).d (k.row / A.rowsPerBlock) (junk i)
        (if k.row / A.rowsPerBlock < A.nBlocks then some (some (k.row / A.rowsPerBlock)) else none) := by
    have hn : (A.view i).d.nBlocks = A.nBlocks := rfl
    unfold State.loadBlock loadWith
    rw [hn]
    by_cases hb : k.row / A.rowsPerBlock < A.nBlocks
    · simp only [if_pos hb, Option.bind_some]
      cases (A.view i).d.file (k.row / A.rowsPerBlock) <;> rfl
    · simp only [if_neg hb]
  have hstep : (A.cols i).client = .load k → (A.view i).clientStep (P i) (junk i) = some { A.view i with
      d := (State.loadBlock (P i) (A.view i).d (k.row / A.rowsPerBlock) (junk i)).finish k
      client := CPC.at ((State.loadBlock (P i) (A.view i).d (k.row / A.rowsPerBlock) (junk i)).finish k).client } := by
    intro hcl
    unfold SState.clientStep
    rw [show (A.view i).client = .load k from hcl]
    rfl
  simp only [msstep]
  unfold loaded goOn MSState.client
  rw [← key]
  unfold calls at hc
  split at hc
  · split at hc
    · split at hc <;> cases hc
    · cases hc
  · rename_i j hp
    simp only [hp]
    split at hc
    · rename_i k' hk
      injection hc with hc
      injection hc with e1 e2
      subst e1
      rw [eq_of_heq e2] at hk
      rw [hstep hk]
      rfl
    · cases hc
  · rename_i j hp
    simp only [hp]
    split at hc
    · rename_i k' hk
      injection hc with hc
      injection hc with e1 e2
      subst e1
      rw [eq_of_heq e2] at hk
      rw [hstep hk]
      rfl
    · cases hc
  · cases hc
  · cases hc

theorem loaded_same {F : MSState P} (h : Same F A) (hn : F.nBlocks = A.nBlocks) (i : Fin c) (k : Next (W i))
    (junk : Nat → W i) (slot : Option (Option Nat)) :
    Same (loaded F i k junk slot) (loaded A i k junk slot) ∧
      (loaded F i k junk slot).nBlocks = (loaded A i k junk slot).nBlocks := by
  unfold loaded
  rw [h.eq hn i, h.rows]
  unfold goOn
  rw [h.pc]
  cases hp : A.pc
  all_goals exact ⟨same_set h rfl rfl rfl rfl h.todo h.rows, rfl⟩

theorem sim_client (hf : Facts A) (h : LRel G A) {junk : (i : Fin c) → Nat → W i}
    (e : lstep G (.client junk) = some G') : LSim G G' A (.client junk) := by
  simp only [lstep] at e
  unfold LState.clientStep at e
  rw [same_calls h.same] at e
  cases hc : calls A with
  | none =>
    simp only [hc] at e
    obtain ⟨F1, e1, e2⟩ := Option.map_eq_some_iff.mp e
    rcases client_alike h.same (.inl hc) junk with ⟨h1, _⟩ | ⟨F2, A2, h1, h2, h3, h4, h5⟩
    · rw [h1] at e1; cases e1
    · rw [h1] at e1
      injection e1 with e1
      subst e1 e2
      refine ⟨A2, lrel_alike h h3 h4 h5 (fun i t b r _ => client_keeps hf h2 i t b r) (.inl ?_), .inr ⟨h2, fun hx => by cases hx⟩⟩
      by_contra hx
      exact busy_calls h hx hc
  | some q =>
    cases q with
    | count =>
      simp only [hc] at e
      cases hg : G.client with
      | count =>
        simp only [hg] at e
        have ho := h.holds.mp (by rw [hg]; rfl)
        have hnb := h.nBlocks fun i t => .inl (h.free (.inr ho) i t)
        obtain ⟨F1, e1, e2⟩ := Option.map_eq_some_iff.mp e
        subst e2
        have hget : ∃ i row rest, A.pc = .idle ∧ A.todo = .get i row :: rest := by
          unfold calls at hc
          split at hc
          · split at hc
            · exact ⟨_, _, _, by assumption, by assumption⟩
            · cases hc
          · split at hc <;> cases hc
          · split at hc <;> cases hc
          · cases hc
          · cases hc
        obtain ⟨i, row, rest, hp, ht⟩ := hget
        simp only [msstep] at e1
        unfold MSState.client at e1
        simp only [h.same.pc, h.same.todo, hp, ht] at e1
        injection e1 with e1
        subst e1
        refine ⟨MSState.enter { A with todo := rest } i (enterCall (P i) (A.view i) (.get row)), lrel_release h ho ?_ ?_,
          .inr ⟨?_, fun hx => by cases hx⟩⟩
        · rw [h.same.eq hnb i]
          exact same_set h.same rfl rfl rfl rfl rfl h.same.rows
        · rw [h.same.eq hnb i]
          rfl
        · simp only [msstep]
          unfold MSState.client
          simp only [hp, ht]
      | out =>
        simp only [hg] at e
        obtain ⟨h1, rfl⟩ := acquire_is e
        refine ⟨A, lrel_client (pos := G.pos) h (h.free (.inl h1)) (.inl ⟨rfl, .inl hc⟩), .inl ⟨rfl, rfl, ?_⟩⟩
        simp only [LState.rank, hg, CStage.rank]
        omega
      | found => obtain ⟨i, k, h1, _⟩ := h.load (.inl hg); rw [hc] at h1; cases h1
      | readLocked => obtain ⟨i, k, h1, _⟩ := h.load (.inr (.inl hg)); rw [hc] at h1; cases h1
      | readSought => obtain ⟨i, k, h1, _⟩ := h.load (.inr (.inr hg)); rw [hc] at h1; cases h1
      | header => have h1 := (h.header hg).1; rw [hc] at h1; cases h1
    | load i k =>
      simp only [hc] at e
      cases hg : G.client with
      | out =>
        simp only [hg] at e
        obtain ⟨h1, rfl⟩ := acquire_is e
        refine ⟨A, lrel_client (pos := G.pos) h (h.free (.inl h1)) (.inl ⟨rfl, .inr ⟨i, k, hc⟩⟩), .inl ⟨rfl, rfl, ?_⟩⟩
        simp only [LState.rank, hg, CStage.rank]
        omega
      | count =>
        simp only [hg] at e
        have ho := h.holds.mp (by rw [hg]; rfl)
        have hnb := h.nBlocks fun i t => .inl (h.free (.inr ho) i t)
        split at e
        · rename_i hb
          injection e with e
          subst e
          have hout := h.free (.inr ho)
          rw [h.same.rows, hnb] at hb
          refine ⟨A, ?_, .inl ⟨rfl, rfl, by simp only [LState.rank, hg, CStage.rank]; omega⟩⟩
          exact
            { same := h.same
              good := h.good
              nBlocks := h.nBlocks
              thread := fun i t => ⟨fun hx => absurd (hout i t) hx, fun hx => by cases hx⟩
              holds := ⟨fun hx => (by cases hx), fun hx => (by cases hx)⟩
              write := fun i t hx => absurd (hout i t) hx
              count := fun hx => by cases hx
              load := fun _ => ⟨i, k, hc, hb, fun hx => by cases hx⟩
              header := fun hx => by cases hx }
        · rename_i hb
          injection e with e
          subst e
          rw [h.same.rows, hnb] at hb
          obtain ⟨h1, h2⟩ := loaded_same h.same hnb i k (junk i) none
          refine ⟨loaded A i k (junk i) none, lrel_release h ho h1 h2, .inr ⟨?_, fun hx => by cases hx⟩⟩
          rw [load_step hc junk, if_neg hb]
      | found =>
        simp only [hg] at e
        obtain ⟨h1, rfl⟩ := acquire_is e
        obtain ⟨i', k', h2, h3, _⟩ := h.load (.inl hg)
        refine ⟨A, lrel_client (pos := G.pos) h (h.free (.inl h1)) (.inr ⟨.inl rfl, i', k', h2, h3, fun hx => by cases hx⟩),
          .inl ⟨rfl, rfl, ?_⟩⟩
        simp only [LState.rank, hg, CStage.rank]
        omega
      | readLocked =>
        simp only [hg] at e
        injection e with e
        have ho := h.holds.mp (by rw [hg]; rfl)
        obtain ⟨i', k', h2, h3, _⟩ := h.load (.inr (.inl hg))
        rw [hc] at h2
        injection h2 with h2
        injection h2 with e1 e2
        subst e1
        rw [← eq_of_heq e2] at h3
        have h4 := lrel_client h (h.free (.inr ho)) (s := .readSought) (pos := some (i, k.row / G.F.rowsPerBlock))
          (.inr ⟨.inr rfl, i, k, hc, h3, fun _ => by rw [h.same.rows]⟩)
        refine ⟨A, ?_, .inl ⟨rfl, rfl, by rw [← e]; simp only [LState.rank, hg, CStage.rank]; omega⟩⟩
        rw [← ho] at h4
        rw [← e]
        exact h4
      | readSought =>
        simp only [hg] at e
        injection e with e
        subst e
        have ho := h.holds.mp (by rw [hg]; rfl)
        have hnb := h.nBlocks fun i t => .inl (h.free (.inr ho) i t)
        obtain ⟨i', k', h2, h3, h4⟩ := h.load (.inr (.inr hg))
        rw [hc] at h2
        injection h2 with h2
        injection h2 with e1 e2
        subst e1
        rw [← eq_of_heq e2] at h3 h4
        have hslot : slotOf G.pos i = some (k.row / A.rowsPerBlock) := by
          rw [h4 hg]
          simp only [slotOf, if_true]
        rw [hslot]
        obtain ⟨h5, h6⟩ := loaded_same h.same hnb i k (junk i) (some (some (k.row / A.rowsPerBlock)))
        refine ⟨_, lrel_release h ho h5 h6, .inr ⟨?_, fun hx => by cases hx⟩⟩
        rw [load_step hc junk, if_pos h3]
      | header => have h1 := (h.header hg).1; rw [hc] at h1; cases h1
    | header =>
      simp only [hc] at e
      cases hg : G.client with
      | header =>
        simp only [hg] at e
        obtain ⟨F1, e1, e2⟩ := Option.map_eq_some_iff.mp e
        rcases client_alike h.same (.inr hc) junk with ⟨h1, _⟩ | ⟨F2, A2, h1, h2, h3, h4, h5⟩
        · rw [h1] at e1; cases e1
        · rw [h1] at e1
          injection e1 with e1
          subst e1
          have h6 := lrel_alike (lrel_out h (by rw [hg]; rfl)) h3 h4 h5 (fun i t b r _ => client_keeps hf h2 i t b r) (.inl rfl)
          refine ⟨A2, ?_, .inr ⟨h2, fun hx => by cases hx⟩⟩
          rw [← e2, (h.header hg).2]
          have h7 : (G.bad || (none : Option (Fin c × Nat)).isSome) = G.bad := by rw [h.good]; rfl
          rw [h7]
          have h8 := (h.header hg).2
          rw [h8] at h6
          exact h6
      | out =>
        simp only [hg] at e
        injection e with e
        subst e
        have hout : ∀ i t, G.threads i t = .out := by
          intro i t
          by_contra hx
          obtain ⟨b, r, h1, _⟩ := h.write i t hx
          exact hf.alone hc i t b r h1
        refine ⟨A, ?_, .inl ⟨rfl, rfl, by simp only [LState.rank, hg, CStage.rank]; omega⟩⟩
        exact
          { same := h.same
            good := h.good
            nBlocks := h.nBlocks
            thread := h.thread
            holds := ⟨fun hx => (by cases hx), fun hx => by
              have := h.holds.mpr hx
              rw [hg] at this
              cases this⟩
            write := fun i t hx => absurd (hout i t) hx
            count := fun hx => by cases hx
            load := fun hx => by rcases hx with hx | hx | hx <;> cases hx
            header := fun _ => ⟨hc, rfl⟩ }
      | count => rcases h.count hg with h1 | ⟨i, k, h1⟩ <;> rw [hc] at h1 <;> cases h1
      | found => obtain ⟨i, k, h1, _⟩ := h.load (.inl hg); rw [hc] at h1; cases h1
      | readLocked => obtain ⟨i, k, h1, _⟩ := h.load (.inr (.inl hg)); rw [hc] at h1; cases h1
      | readSought => obtain ⟨i, k, h1, _⟩ := h.load (.inr (.inr hg)); rw [hc] at h1; cases h1

theorem same_nBlocks {F : MSState P} (h : Same F A) (x : Nat) : Same { F with nBlocks := x } A := by
  refine ⟨h.pc, h.todo, h.rows, fun i => ?_⟩
  have h1 := congrArg (wN · x) (h.view i)
  exact h1

theorem raise_le (n b : Nat) : n ≤ raise n b := by
  unfold raise
  split <;> omega

/-- The thread writes its block in one step. -/
theorem write_step {i : Fin c} {t : Fin (P i).threads} {b : Nat} {r : Rows (W i)}
    (hw : (A.cols i).threads t = .write b r) : msstep A (.thread i t) = some (A.set i { (A.view i).setT t (.relock b) with
      d := { (A.view i).d with
        file := fun b' => if b' = b then some r else (A.view i).d.file b'
        nBlocks := raise A.nBlocks b
        writes := (A.view i).d.writes ++ [(b, r)] } }) := by
  simp only [msstep]
  unfold SState.threadStep
  rw [show (A.view i).threads t = .write b r from hw]
  rfl

theorem sim_thread (hf : Facts A) (h : LRel G A) {i : Fin c} {t : Fin (P i).threads}
    (e : lstep G (.thread i t) = some G') : LSim G G' A (.thread i t) := by
  simp only [lstep] at e
  unfold LState.threadStep at e
  rw [h.same.threads i] at e
  by_cases hw : ∃ b r, (A.cols i).threads t = .write b r
  · obtain ⟨b, r, hw⟩ := hw
    simp only [hw] at e
    cases hg : G.threads i t with
    | out =>
      simp only [hg] at e
      obtain ⟨h1, rfl⟩ := acquire_is e
      have hout := h.free (.inl h1)
      refine ⟨A, lrel_thread hf h hw (fun j u _ => hout j u) (h.quiet (by rw [h1]; exact fun hx => by cases hx)) (s := .locked)
        (fun hx => by cases hx) h.same rfl rfl rfl rfl (fun _ => h.nBlocks fun j u => .inl (hout j u))
        (fun hx => by rcases hx with hx | hx <;> cases hx) (fun hx => by cases hx), .inl ⟨rfl, rfl, ?_⟩⟩
      have := rank_setT (G := G) (H := { G.setT i t .locked with owner := some (some ⟨i, t⟩) }) rfl rfl
      rw [hg] at this
      simp only [Stage.rank] at this
      omega
    | locked =>
      simp only [hg] at e
      injection e with e
      subst e
      have hne : G.threads i t ≠ .out := by rw [hg]; exact fun hx => by cases hx
      have ho := (h.thread i t).mp hne
      have hnb : G.F.nBlocks = A.nBlocks := h.nBlocks fun j u => by
        by_cases hx : (⟨j, u⟩ : (i : Fin c) × Fin (P i).threads) = ⟨i, t⟩
        · injection hx with e1 e2
          subst e1
          rw [eq_of_heq e2]
          exact .inr hg
        · exact .inl (h.others hne hx)
      refine ⟨A, lrel_thread hf h hw (fun j u hx => h.others hne hx) (h.quiet (by rw [ho]; exact fun hx => by cases hx))
        (s := .counted) (fun hx => by cases hx) (same_nBlocks h.same _) rfl ho rfl rfl (fun hx => by cases hx)
        (fun _ => by rw [← hnb]) (fun hx => by cases hx), .inl ⟨rfl, rfl, ?_⟩⟩
      have := rank_setT (G := G) (H := { G.setT i t .counted with F := { G.F with nBlocks := raise G.F.nBlocks b } }) rfl rfl
      rw [hg] at this
      simp only [Stage.rank] at this
      omega
    | counted =>
      simp only [hg] at e
      injection e with e
      subst e
      have hne : G.threads i t ≠ .out := by rw [hg]; exact fun hx => by cases hx
      have ho := (h.thread i t).mp hne
      obtain ⟨b', r', h1, h2, _⟩ := h.write i t hne
      rw [hw] at h1
      injection h1 with e1 e2
      subst e1
      have hnb := h2 (.inl hg)
      refine ⟨A, lrel_thread hf h hw (fun j u hx => h.others hne hx) (h.quiet (by rw [ho]; exact fun hx => by cases hx))
        (s := .sought) (fun hx => by cases hx) h.same rfl ho rfl rfl (fun hx => by cases hx)
        (fun _ => hnb) (fun _ => rfl), .inl ⟨rfl, rfl, ?_⟩⟩
      have := rank_setT (G := G) (H := { G.setT i t .sought with pos := some (i, b) }) rfl rfl
      rw [hg] at this
      simp only [Stage.rank] at this
      omega
    | sought =>
      have hne : G.threads i t ≠ .out := by rw [hg]; exact fun hx => by cases hx
      have ho := (h.thread i t).mp hne
      have hq := h.quiet (by rw [ho]; exact fun hx => by cases hx)
      obtain ⟨b', r', h1, h2, h3⟩ := h.write i t hne
      rw [hw] at h1
      injection h1 with e1 e2
      subst e1
      have hnb := h2 (.inr hg)
      have hslot : slotOf G.pos i = some b := by
        rw [h3 hg]
        simp only [slotOf, if_true]
      simp only [hg, hslot] at e
      injection e with e
      have hout : ∀ j u, (G.setT i t .out).threads j u = .out := by
        intro j u
        by_cases hx : (⟨j, u⟩ : (i : Fin c) × Fin (P i).threads) = ⟨i, t⟩
        · injection hx with e1 e2
          subst e1
          rw [eq_of_heq e2, setT_self]
        · rw [setT_ne _ _ _ _ hx, h.others hne hx]
      have hm := write_step hw
      obtain ⟨-, hk, hr⟩ := thread_keeps_all hm
      refine ⟨_, ?_, .inr ⟨hm, fun hx => by cases hx⟩⟩
      rw [← e]
      refine
        { same := ?_
          good := h.good
          nBlocks := fun _ => hnb
          thread := fun j u => ⟨fun hx => absurd (hout j u) hx, fun hx => by cases hx⟩
          holds := ⟨fun hx => ?_, fun hx => by cases hx⟩
          write := fun j u hx => absurd (hout j u) hx
          count := fun hx => ?_
          load := fun hx => ?_
          header := fun hx => ?_ }
      · refine same_set h.same (i := i) (x := G.F.nBlocks) (f := { (A.view i).setT t (.relock b) with
          d := { (A.view i).d with
            file := fun b' => if b' = b then some r else (A.view i).d.file b'
            nBlocks := raise A.nBlocks b
            writes := (A.view i).d.writes ++ [(b, r)] } }) ?_ rfl rfl h.same.pc h.same.todo h.same.rows
        unfold written MSState.set
        rw [h.same.view i]
        rfl
      · rw [show G.client.holds = true from hx] at hq; cases hq
      · rw [show G.client = .count from hx] at hq; cases hq
      · obtain ⟨i', k', h4, h5, _⟩ := h.load hx
        refine ⟨i', k', hk _ h4, ?_, fun hy => ?_⟩
        · exact lt_of_lt_of_le h5 (raise_le _ _)
        · rw [show G.client = .readSought from hy] at hq; cases hq
      · exact absurd hw (hf.alone (h.header hx).1 i t b r)
  · have hw' : ∀ b r, (A.cols i).threads t ≠ .write b r := fun b r hx => hw ⟨b, r, hx⟩
    have e' : (msstep G.F (.thread i t)).map (fun F => { G with F := F }) = some G' := by
      revert e
      split
      · rename_i hx; exact fun _ => absurd hx (hw' _ _)
      · exact fun e => e
    obtain ⟨F1, e1, e2⟩ := Option.map_eq_some_iff.mp e'
    rcases thread_alike h.same hw' with ⟨h1, _⟩ | ⟨F2, A2, h1, h2, h3, h4, h5⟩
    · rw [h1] at e1; cases e1
    · rw [h1] at e1
      injection e1 with e1
      subst e1 e2
      obtain ⟨k1, k2, k3⟩ := thread_keeps_all h2
      refine ⟨A2, lrel_alike h h3 h4 h5 (fun j u b r ho hx => k1 j u b r (fun hy => ?_) hx) (.inr ⟨k2, k3⟩),
        .inr ⟨h2, fun hx => by cases hx⟩⟩
      injection hy with e1 e2
      subst e1
      rw [eq_of_heq e2] at hx
      exact hw' b r hx

theorem sim_step (hf : Facts A) (h : LRel G A) {l : MLabel P} (e : lstep G l = some G') : LSim G G' A l := by
  cases l with
  | client junk => exact sim_client hf h e
  | thread i t => exact sim_thread hf h e
  | spuriousThread i t =>
    simp only [lstep] at e
    obtain ⟨F1, e1, e2⟩ := Option.map_eq_some_iff.mp e
    rcases spuriousThread_alike h.same i t with ⟨h1, _⟩ | ⟨F2, A2, h1, h2, h3, h4, h5⟩
    · rw [h1] at e1; cases e1
    · rw [h1] at e1
      injection e1 with e1
      subst e1 e2
      obtain ⟨f, h6, rfl⟩ := Option.map_eq_some_iff.mp
        (show (sstep (P i) (A.view i) (.spuriousThread t)).map (A.set i) = some A2 from h2)
      injection h6 with h6
      obtain ⟨k1, k2, k3⟩ := spurious_keeps (A := A) (i := i) (f := f) (fun u b r hx => by
        rw [← h6]
        show Function.update (A.cols i).threads t _ u = _
        by_cases hu : u = t
        · subst hu; rw [Function.update_self]; exact wake_write hx
        · rw [Function.update_of_ne hu]; exact hx) (fun k hx => by rw [← h6]; exact hx)
      exact ⟨_, lrel_alike h h3 h4 h5 (fun j u b r _ hx => k1 j u b r hx) (.inr ⟨k2, k3⟩), .inr ⟨h2, fun _ => rfl⟩⟩
  | spuriousClient i =>
    simp only [lstep] at e
    obtain ⟨F1, e1, e2⟩ := Option.map_eq_some_iff.mp e
    rcases spuriousClient_alike h.same i with ⟨h1, _⟩ | ⟨F2, A2, h1, h2, h3, h4, h5⟩
    · rw [h1] at e1; cases e1
    · rw [h1] at e1
      injection e1 with e1
      subst e1 e2
      obtain ⟨f, h6, rfl⟩ := Option.map_eq_some_iff.mp
        (show (sstep (P i) (A.view i) .spuriousClient).map (A.set i) = some A2 from h2)
      injection h6 with h6
      obtain ⟨k1, k2, k3⟩ := spurious_keeps (A := A) (i := i) (f := f) (fun u b r hx => by rw [← h6]; exact hx)
        (fun k hx => by rw [← h6]; show (A.cols i).client.wake = _; rw [hx]; rfl)
      exact ⟨_, lrel_alike h h3 h4 h5 (fun j u b r _ hx => k1 j u b r hx) (.inr ⟨k2, k3⟩), .inr ⟨h2, fun _ => rfl⟩⟩

end step

theorem lrel_initial (pos : Option (Fin c × Nat)) :
    LRel (linitial P k rows file nB prog pos) (msinitial P k rows file nB prog) :=
  { same := ⟨rfl, rfl, rfl, fun _ => rfl⟩
    good := rfl
    nBlocks := fun _ => rfl
    thread := fun i t => ⟨fun hx => absurd rfl hx, fun hx => by cases hx⟩
    holds := ⟨fun hx => (by cases hx), fun hx => (by cases hx)⟩
    write := fun i t hx => absurd rfl hx
    count := fun hx => by cases hx
    load := fun hx => by rcases hx with hx | hx | hx <;> cases hx
    header := fun hx => by cases hx }

theorem msrun_snoc {F F' F'' : MSState P} {ls : List (MLabel P)} {l : MLabel P} (h : msrun F ls = some F')
    (e : msstep F' l = some F'') : msrun F (ls ++ [l]) = some F'' := by
  induction ls generalizing F with
  | nil =>
    injection h with h
    subst h
    simp only [List.nil_append, msrun, e, Option.bind_some]
  | cons l' ls ih =>
    simp only [msrun, List.cons_append] at h ⊢
    cases h1 : msstep F l' with
    | none => rw [h1] at h; cases h
    | some F1 => rw [h1] at h; exact ih h

/-- A bound for the number of statements in the manager that belong to one statement of `MStmtModel`. -/
def inManager (P : (i : Fin c) → Params (W i) K) : Nat := (∑ i, (P i).threads) * 3 + 4

theorem lrank_le (G : LState P) : G.rank ≤ inManager P := by
  have h1 : ∀ s : Stage, s.rank ≤ 3 := by intro s; cases s <;> decide
  have h2 : ∀ s : CStage, s.rank ≤ 4 := by intro s; cases s <;> decide
  have h3 : ∑ x : (i : Fin c) × Fin (P i).threads, (G.threads x.1 x.2).rank ≤
      Fintype.card ((i : Fin c) × Fin (P i).threads) * 3 := by
    have := Finset.sum_le_card_nsmul Finset.univ (fun x : (i : Fin c) × Fin (P i).threads => (G.threads x.1 x.2).rank) 3
      fun x _ => h1 _
    simpa using this
  have h4 : Fintype.card ((i : Fin c) × Fin (P i).threads) = ∑ i, (P i).threads := by simp
  rw [h4] at h3
  exact Nat.add_le_add h3 (h2 _)

theorem lrel_run (hn : ∀ i, 0 < (P i).threads) {G G' : LState P} {A : MSState P} (h : LRel G A) {ls0 ls : List (MLabel P)}
    (h0 : msrun (msinitial P k rows file nB prog) ls0 = some A) (e : lrun G ls = some G') :
    ∃ ls' A', ls'.Sublist ls ∧ msrun (msinitial P k rows file nB prog) (ls0 ++ ls') = some A' ∧ LRel G' A' ∧
      ls.countP (·.real) + G'.rank ≤ ls'.countP (·.real) * (inManager P + 1) + G.rank := by
  induction ls generalizing G A ls0 with
  | nil =>
    injection e with e
    subst e
    exact ⟨[], A, List.Sublist.refl _, by rw [List.append_nil]; exact h0, h, by simp⟩
  | cons l ls ih =>
    simp only [lrun] at e
    cases h1 : lstep G l with
    | none => rw [h1] at e; cases e
    | some G1 =>
      rw [h1] at e
      obtain ⟨A1, h2, h3⟩ := sim_step (facts hn h0) h h1
      rcases h3 with ⟨rfl, h3, h4⟩ | ⟨h3, h4⟩
      · obtain ⟨ls', A', k1, k2, k3, k4⟩ := ih h2 h0 e
        refine ⟨ls', A', k1.cons _, k2, k3, ?_⟩
        rw [List.countP_cons, h3]
        simp only [if_true]
        omega
      · obtain ⟨ls', A', k1, k2, k3, k4⟩ := ih h2 (msrun_snoc h0 h3) e
        refine ⟨l :: ls', A', k1.cons_cons _, by rw [List.append_assoc] at k2; exact k2, k3, ?_⟩
        rw [List.countP_cons, List.countP_cons]
        have h5 := lrank_le G1
        cases hl : l.real with
        | true =>
          simp only [if_true]
          rw [Nat.succ_mul]
          omega
        | false =>
          have h6 := h4 hl
          simp only [Bool.false_eq_true, if_false, Nat.add_zero]
          omega

theorem lrel_reach (hn : ∀ i, 0 < (P i).threads) {pos : Option (Fin c × Nat)} {ls : List (MLabel P)} {G : LState P}
    (e : lrun (linitial P k rows file nB prog pos) ls = some G) :
    ∃ ls' A, ls'.Sublist ls ∧ msrun (msinitial P k rows file nB prog) ls' = some A ∧ LRel G A ∧
      ls.countP (·.real) ≤ (ls'.countP (·.real) + 1) * (inManager P + 1) := by
  obtain ⟨ls', A, h1, h2, h3, h4⟩ := lrel_run hn (lrel_initial pos) (ls0 := []) rfl e
  refine ⟨ls', A, h1, h2, h3, ?_⟩
  have := lrank_le (linitial P k rows file nB prog pos)
  rw [Nat.succ_mul]
  omega

/-! ## C130 -/

section claims
variable {pos : Option (Fin c × Nat)} {ls : List (MLabel P)} {G : LState P}

/-- Every run with interrupted calls of the manager gives what a run of `MStmtModel` gives along a part of the schedule.
The number of blocks agrees when no thread is in the manager. -/
theorem manager_same (hn : ∀ i, 0 < (P i).threads) (e : lrun (linitial P k rows file nB prog pos) ls = some G) :
    ∃ ls' A, ls'.Sublist ls ∧ msrun (msinitial P k rows file nB prog) ls' = some A ∧ G.F.pc = A.pc ∧ G.F.todo = A.todo ∧
      G.F.rowsPerBlock = A.rowsPerBlock ∧
      (∀ i, G.F.view i = { A.view i with d := { (A.view i).d with nBlocks := G.F.nBlocks } }) ∧
      ((∀ x, G.owner ≠ some (some x)) → G.F.nBlocks = A.nBlocks) := by
  obtain ⟨ls', A, h1, h2, h3, _⟩ := lrel_reach hn e
  refine ⟨ls', A, h1, h2, h3.same.pc, h3.same.todo, h3.same.rows, h3.same.view, fun ho => h3.nBlocks fun i t => .inl ?_⟩
  by_contra hx
  exact ho _ ((h3.thread i t).mp hx)

/-- Nothing is ever written in the wrong place: whoever is about to read or write finds the position of the stream where
it was put, also while the header is written without a mutex. -/
theorem stream_safe (hn : ∀ i, 0 < (P i).threads) (e : lrun (linitial P k rows file nB prog pos) ls = some G) :
    G.bad = false ∧
    (∀ i t b r, (G.F.cols i).threads t = .write b r → G.threads i t = .sought → G.pos = some (i, b)) ∧
    (∀ i k, calls G.F = some (.load i k) → G.client = .readSought → G.pos = some (i, k.row / G.F.rowsPerBlock)) ∧
    (G.client = .header → G.pos = none) := by
  obtain ⟨ls', A, h1, h2, h3, _⟩ := lrel_reach hn e
  refine ⟨h3.good, fun i t b r hw hs => ?_, fun i k hc hs => ?_, fun hs => (h3.header hs).2⟩
  · obtain ⟨b', r', h4, _, h5⟩ := h3.write i t (by rw [hs]; exact fun hx => by cases hx)
    rw [← h3.same.threads i, hw] at h4
    injection h4 with e1 e2
    rw [e1]
    exact h5 hs
  · obtain ⟨i', k', h4, _, h5⟩ := h3.load (.inr (.inr hs))
    rw [same_calls h3.same, h4] at hc
    injection hc with hc
    injection hc with e1 e2
    subst e1
    rw [← eq_of_heq e2, h3.same.rows]
    exact h5 hs

/-- At most one of the client and the threads of all columns is between taking and releasing the mutex of the manager,
and none while the client writes the header. -/
theorem manager_one (hn : ∀ i, 0 < (P i).threads) (e : lrun (linitial P k rows file nB prog pos) ls = some G) :
    (∀ i t j u, G.threads i t ≠ .out → G.threads j u ≠ .out →
      (⟨i, t⟩ : (i : Fin c) × Fin (P i).threads) = ⟨j, u⟩) ∧
    (G.client.holds = true → ∀ i t, G.threads i t = .out) ∧
    (∀ i row v, G.F.pc = .header i row v → (∀ i t, G.threads i t = .out) ∧ ∀ i t b r, (G.F.cols i).threads t ≠ .write b r) := by
  obtain ⟨ls', A, h1, h2, h3, _⟩ := lrel_reach hn e
  refine ⟨fun i t j u hi hj => ?_, fun hh => h3.free (.inr (h3.holds.mp hh)), fun i row v hp => ?_⟩
  · by_contra hx
    exact hi (h3.others hj hx)
  · have hc : calls A = some .header := by
      unfold calls
      rw [← h3.same.pc, hp]
    have ha := (facts hn h2).alone hc
    refine ⟨fun j u => ?_, fun j u b r hx => ?_⟩
    · by_contra hx
      obtain ⟨b, r, h4, _⟩ := h3.write j u hx
      exact ha j u b r h4
    · rw [h3.same.threads j] at hx
      exact ha j u b r hx

/-- If neither the client nor any thread can go on, the same holds for `MStmtModel`, and nobody has the mutex. -/
theorem lstuck {A : MSState P} (h : LRel G A) {junk : (i : Fin c) → Nat → W i} (hc : lstep G (.client junk) = none)
    (hs : ∀ i t, lstep G (.thread i t) = none) :
    G.owner = none ∧ msstep A (.client junk) = none ∧ ∀ i t, msstep A (.thread i t) = none := by
  have hthread : ∀ i t, G.threads i t = .out := by
    intro i t
    by_contra hx
    obtain ⟨b, r, h1, _⟩ := h.write i t hx
    have h2 := hs i t
    simp only [lstep] at h2
    unfold LState.threadStep at h2
    rw [h.same.threads i, h1] at h2
    simp only at h2
    split at h2
    · rename_i h3; exact hx h3
    · cases h2
    · cases h2
    · split at h2 <;> cases h2
  have hheld : G.client.holds = false := by
    cases hh : G.client.holds with
    | false => rfl
    | true =>
      exfalso
      simp only [lstep] at hc
      unfold LState.clientStep at hc
      rw [same_calls h.same] at hc
      cases hg : G.client with
      | count =>
        rcases h.count hg with h1 | ⟨i, k, h1⟩
        · simp only [h1, hg, Option.map_eq_none_iff] at hc
          simp only [msstep] at hc
          unfold MSState.client at hc
          rw [h.same.pc, h.same.todo] at hc
          unfold calls at h1
          split at h1
          · rename_i hp
            rw [hp] at hc
            split at h1
            · rename_i ht
              rw [ht] at hc
              cases hc
            · cases h1
          · split at h1 <;> cases h1
          · split at h1 <;> cases h1
          · cases h1
          · cases h1
        · simp only [h1, hg] at hc
          split at hc <;> cases hc
      | readLocked =>
        obtain ⟨i, k, h1, _⟩ := h.load (.inr (.inl hg))
        simp only [h1, hg] at hc
        cases hc
      | readSought =>
        obtain ⟨i, k, h1, _⟩ := h.load (.inr (.inr hg))
        simp only [h1, hg] at hc
        cases hc
      | out => rw [hg] at hh; cases hh
      | found => rw [hg] at hh; cases hh
      | header => rw [hg] at hh; cases hh
  have ho : G.owner = none := by
    cases hg : G.owner with
    | none => rfl
    | some x =>
      cases x with
      | none => rw [h.holds.mpr hg] at hheld; cases hheld
      | some x => exact absurd (hthread x.1 x.2) ((h.thread x.1 x.2).mpr hg)
  have hacq : ∀ who (H : LState P), G.acquire who H ≠ none := by
    intro who H hx
    unfold LState.acquire at hx
    rw [ho] at hx
    cases hx
  refine ⟨ho, ?_, fun i t => ?_⟩
  · simp only [lstep] at hc
    unfold LState.clientStep at hc
    rw [same_calls h.same] at hc
    cases hq : calls A with
    | none =>
      simp only [hq, Option.map_eq_none_iff] at hc
      rcases client_alike h.same (.inl hq) junk with ⟨_, h2⟩ | ⟨F2, A2, h1, _⟩
      · exact h2
      · rw [h1] at hc; cases hc
    | some q =>
      exfalso
      cases q with
      | count =>
        cases hg : G.client <;> simp only [hq, hg] at hc <;> first
          | exact hacq _ _ hc
          | (rw [hg] at hheld; cases hheld)
      | load i k =>
        cases hg : G.client <;> simp only [hq, hg] at hc <;> first
          | exact hacq _ _ hc
          | (rw [hg] at hheld; cases hheld)
      | header =>
        obtain ⟨i, row, v, hp⟩ := calls_header hq
        rw [← h.same.pc] at hp
        cases hg : G.client <;> simp only [hq, hg] at hc <;> first
          | cases hc
          | (simp only [Option.map_eq_none_iff, msstep] at hc
             unfold MSState.client at hc
             rw [hp] at hc
             cases hc)
  · have h1 := hs i t
    simp only [lstep] at h1
    unfold LState.threadStep at h1
    rw [h.same.threads i] at h1
    by_cases hw : ∃ b r, (A.cols i).threads t = .write b r
    · exfalso
      obtain ⟨b, r, hw⟩ := hw
      simp only [hw, hthread i t] at h1
      exact hacq _ _ h1
    · have hw' : ∀ b r, (A.cols i).threads t ≠ .write b r := fun b r hx => hw ⟨b, r, hx⟩
      have e' : msstep G.F (.thread i t) = none := by
        revert h1
        split
        · rename_i hx; exact fun _ => absurd hx (hw' _ _)
        · exact fun e => Option.map_eq_none_iff.mp e
      rcases thread_alike h.same hw' with ⟨_, h2⟩ | ⟨F2, A2, h2, _⟩
      · exact h2
      · rw [h2] at e'; cases e'

theorem finished_same {F A : MSState P} (h : Same F A) (hf : MSFinished A) : MSFinished F := by
  obtain ⟨h1, h2⟩ := hf
  refine ⟨by rw [h.pc, h.todo]; exact h1, fun i => ?_⟩
  have e1 := congrArg SState.mutex (h.view i)
  have e2 := congrArg (fun f : SState (W i) K (P i).threads => f.d.started) (h.view i)
  obtain ⟨a1, a2, a3⟩ := h2 i
  rw [← h.cache i, ← h.threads i] at a2
  rw [← h.threads i] at a3
  exact ⟨e1.trans a1, fun hx => a2 (e2.symm.trans hx), fun hx => a3 (e2.symm.trans hx)⟩

/-- Whenever neither the client nor any thread of any column can execute a statement, all work is done and nobody has the
mutex of the manager. -/
theorem manager_no_deadlock (hn : ∀ i, 0 < (P i).threads) (hm : ∀ i, 1 ≤ (P i).maxCache)
    (e : lrun (linitial P k rows file nB prog pos) ls = some G) (junk : (i : Fin c) → Nat → W i)
    (hc : lstep G (.client junk) = none) (hs : ∀ i t, lstep G (.thread i t) = none) : MSFinished G.F ∧ G.owner = none := by
  obtain ⟨ls', A, _, h2, h3, _⟩ := lrel_reach hn e
  obtain ⟨h4, h5, h6⟩ := lstuck h3 hc hs
  exact ⟨finished_same h3.same (mstatements_no_deadlock hn hm h2 junk h5 h6), h4⟩

/-! ### What is in the file -/

/-- C90 with interrupted calls of the manager: a new table to which rows are put column by column, in any order of the
columns, and that is then closed. -/
theorem manager_whole (hn : ∀ i, 0 < (P i).threads) (hmc : ∀ i, 1 ≤ (P i).maxCache) (hc : 0 < c) {m R : Nat}
    {v : (i : Fin c) → Nat → W i} (hm : 0 < m) (hR0 : 0 < R) (hR : R ≤ noBlock)
    (hsame : ∀ i r, 0 < r → r < m → (P i).differs ((P i).key r) ((P i).key 0) = false)
    (hdiff : ∀ i, m < R → (P i).differs ((P i).key m) ((P i).key 0) = true)
    (hrows : rows = m ∨ rows = 0 ∧ m < R) (hw : ∀ i, Whole m (v i) R 0 (ops i prog))
    (e : lrun (linitial P k rows (fun _ _ => none) nB prog pos) ls = some G) :
    G.F.pc ≠ .failed ∧ G.F.pc ≠ .unsupported ∧
    (∀ junk, lstep G (.client junk) = none → (∀ i t, lstep G (.thread i t) = none) → G.F.pc = .closed) ∧
    (G.F.pc = .closed → ∀ i b,
      (b * m < R → ∃ r, (G.F.cols i).d.file b = some r ∧ ofBlock (G.F.cols i).d.writes b = [r] ∧
        Filled m (v i) b (rowsIn m R b) r) ∧
      (R ≤ b * m → (G.F.cols i).d.file b = none)) := by
  obtain ⟨ls', A, _, h2, h3, _⟩ := lrel_reach hn e
  obtain ⟨a1, a2, a3, a4⟩ := mstatements_whole hn hmc hc hm hR0 hR hsame hdiff hrows hw h2
  rw [← h3.same.pc] at a1 a2 a3 a4
  refine ⟨a1, a2, fun junk hj hs => ?_, fun hcl i b => ?_⟩
  · obtain ⟨_, h4, h5⟩ := lstuck h3 hj hs
    exact a3 junk h4 h5
  · have e1 := congrArg (fun f : SState (W i) K (P i).threads => f.d.file) (h3.same.view i)
    have e2 := congrArg (fun f : SState (W i) K (P i).threads => f.d.writes) (h3.same.view i)
    have e1' : (G.F.cols i).d.file = (A.cols i).d.file := e1
    have e2' : (G.F.cols i).d.writes = (A.cols i).d.writes := e2
    rw [e1', e2']
    exact a4 hcl i b

/-- C90 with interrupted calls of the manager: an existing table that is read and changed in any order, and closed. -/
theorem manager_update (hn : ∀ i, 0 < (P i).threads) (hmc : ∀ i, 1 ≤ (P i).maxCache) (hc : 0 < c) {m N : Nat}
    {blocks : (i : Fin c) → Nat → Rows (W i)} (hm : 0 < m) (hN : N ≤ noBlock)
    (hNB : N ≤ nB) (hf : ∀ i b, b < N → file i b = some (blocks i b)) (hw : ∀ i, Updates m N [] noBlock (ops i prog))
    (e : lrun (linitial P k m file nB prog pos) ls = some G) :
    G.F.pc ≠ .failed ∧ G.F.pc ≠ .unsupported ∧
    (∀ junk, lstep G (.client junk) = none → (∀ i t, lstep G (.thread i t) = none) → G.F.pc = .closed) ∧
    (G.F.pc = .closed → ∀ i,
      (G.F.cols i).d.outs = ((Mem.opened (blocks i)).run (P i).dec m (ops i prog)).outs ∧
      (∀ b, b < N → (G.F.cols i).d.file b = some (((Mem.opened (blocks i)).run (P i).dec m (ops i prog)).blocks b)) ∧
      ∀ b, ofBlock (G.F.cols i).d.writes b = ofBlock ((Mem.opened (blocks i)).run (P i).dec m (ops i prog)).log b) := by
  obtain ⟨ls', A, _, h2, h3, _⟩ := lrel_reach hn e
  obtain ⟨a1, a2, a3, a4⟩ := mstatements_update hn hmc hc hm hN hNB hf hw h2
  rw [← h3.same.pc] at a1 a2 a3 a4
  refine ⟨a1, a2, fun junk hj hs => ?_, fun hcl i => ?_⟩
  · obtain ⟨_, h4, h5⟩ := lstuck h3 hj hs
    exact a3 junk h4 h5
  · have e1 : (G.F.cols i).d.file = (A.cols i).d.file :=
      have := congrArg (fun f : SState (W i) K (P i).threads => f.d.file) (h3.same.view i); this
    have e2 : (G.F.cols i).d.writes = (A.cols i).d.writes :=
      have := congrArg (fun f : SState (W i) K (P i).threads => f.d.writes) (h3.same.view i); this
    have e3 : (G.F.cols i).d.outs = (A.cols i).d.outs :=
      have := congrArg (fun f : SState (W i) K (P i).threads => f.d.outs) (h3.same.view i); this
    rw [e1, e2, e3]
    exact a4 hcl i

/-! ### Termination -/

/-- Along every schedule, the number of statements that the client and the threads of all columns execute, also in the
manager, is bounded. -/
theorem manager_bounded (hn : ∀ i, 0 < (P i).threads) (e : lrun (linitial P k rows file nB prog pos) ls = some G) :
    ls.countP (·.real) ≤
      ((mwork (minitial P k rows file nB prog) + 1 + ls.countP (fun l => !l.real)) *
        (∑ i, ((P i).threads * ((P i).maxCache + 5) + 6) + 1) + 1) * ((∑ i, (P i).threads) * 3 + 4 + 1) := by
  obtain ⟨ls', A, h1, h2, _, h4⟩ := lrel_reach hn e
  refine h4.trans (Nat.mul_le_mul_right _ (Nat.add_le_add_right ((mstatements_bounded hn h2).trans ?_) 1))
  exact Nat.mul_le_mul_right _ (Nat.add_le_add_left h1.countP_le _)

theorem lrun_snoc {G G' G'' : LState P} {ls : List (MLabel P)} {l : MLabel P} (h : lrun G ls = some G')
    (e : lstep G' l = some G'') : lrun G (ls ++ [l]) = some G'' := by
  induction ls generalizing G with
  | nil =>
    injection h with h
    subst h
    simp only [List.nil_append, lrun, e, Option.bind_some]
  | cons l' ls ih =>
    simp only [lrun, List.cons_append] at h ⊢
    cases h1 : lstep G l' with
    | none => rw [h1] at h; cases h
    | some G1 => rw [h1] at h; exact ih h

/-- From every reachable state, statements of the client and the threads alone lead to a state in which all work is done
and nobody has the mutex of the manager. -/
theorem manager_finish (hn : ∀ i, 0 < (P i).threads) (hm : ∀ i, 1 ≤ (P i).maxCache)
    (e : lrun (linitial P k rows file nB prog pos) ls = some G) (junk : (i : Fin c) → Nat → W i) :
    ∃ ls' G', (∀ l ∈ ls', MLabel.real l = true) ∧ lrun G ls' = some G' ∧ MSFinished G'.F ∧ G'.owner = none := by
  obtain ⟨B, hB⟩ : ∃ B, ∀ ls1 G1, lrun (linitial P k rows file nB prog pos) ls1 = some G1 →
      ls1.countP (fun l => !l.real) = ls.countP (fun l => !l.real) → ls1.countP (·.real) ≤ B :=
    ⟨_, fun ls1 G1 h1 h2 => h2 ▸ manager_bounded hn h1⟩
  have main : ∀ w ls1 G1, lrun (linitial P k rows file nB prog pos) ls1 = some G1 →
      ls1.countP (fun l => !l.real) = ls.countP (fun l => !l.real) → B - ls1.countP (·.real) = w →
      ∃ ls' G', (∀ l ∈ ls', MLabel.real l = true) ∧ lrun G1 ls' = some G' ∧ MSFinished G'.F ∧ G'.owner = none := by
    intro w
    induction w using Nat.strong_induction_on with
    | _ w ih =>
      intro ls1 G1 h1 h2 hw
      have go : ∀ l G2, MLabel.real l = true → lstep G1 l = some G2 →
          ∃ ls' G', (∀ l ∈ ls', MLabel.real l = true) ∧ lrun G1 ls' = some G' ∧ MSFinished G'.F ∧ G'.owner = none := by
        intro l G2 hl h3
        have h4 := lrun_snoc h1 h3
        have h5 : (ls1 ++ [l]).countP (fun l => !l.real) = ls.countP (fun l => !l.real) := by
          rw [List.countP_append, h2]
          simp [hl]
        have h6 : (ls1 ++ [l]).countP (·.real) = ls1.countP (·.real) + 1 := by
          rw [List.countP_append]
          simp [hl]
        have h7 := hB _ _ h4 h5
        obtain ⟨ls', G', k1, k2, k3⟩ := ih _ (by omega) _ _ h4 h5 rfl
        refine ⟨l :: ls', G', ?_, ?_, k3⟩
        · intro l' hl'
          rcases List.mem_cons.mp hl' with rfl | hl'
          · exact hl
          · exact k1 l' hl'
        · simp only [lrun, h3]
          exact k2
      cases hc : lstep G1 (.client junk) with
      | some G2 => exact go _ G2 rfl hc
      | none =>
        by_cases ht : ∃ i j, lstep G1 (.thread i j) ≠ none
        · obtain ⟨i, j, hi⟩ := ht
          obtain ⟨G2, h2⟩ := Option.ne_none_iff_exists'.mp hi
          exact go _ G2 rfl h2
        · push Not at ht
          exact ⟨[], G1, by simp, rfl, manager_no_deadlock hn hm h1 junk hc ht⟩
  exact main _ ls G e rfl rfl

end claims

/-! ## Examples -/

/-- The state before the schedule. Not in the code. -/
def lstart : LState pair := linitial pair 0 0 (fun _ _ => none) 0 pairProgram none

/-- A schedule that interrupts the calls of the manager. -/
def lschedule : List Nat :=
  [0, 0, 0, 0, 0, 0, 0, 2, 2, 2, 2, 1, 0, 0, 0, 1, 1, 1, 0, 0, 0, 0, 0, 0, 1, 0, 1, 0, 0, 0, 0, 1, 1, 0, 0, 1, 1, 0, 1, 1,
   0, 0, 0, 1, 1, 0, 2, 0, 2, 2, 1, 1, 0, 2, 2, 0, 0, 2, 0, 1, 1, 1, 0, 2, 2, 2, 0, 2, 2, 2, 2, 2, 2, 0, 0, 0, 0, 0, 0, 0,
   0, 1, 1, 1, 1, 1, 1, 1, 1, 1, 1, 1, 1, 1, 1, 1, 0, 0, 0, 0, 0, 1, 1, 1, 1, 0, 0, 0, 0, 0, 0, 0, 0, 2, 0, 2, 2, 2, 2, 0,
   0, 0, 2, 2, 2, 2, 2, 2, 2, 2, 2, 2, 0, 0, 0, 0, 0, 2, 2, 2, 2, 0, 0]

/-- The thread is about to write. Not in the code. -/
def isWrite : TPC Nat → Bool
  | .write .. => true
  | _ => false

/-- The client is about to write the header. Not in the code. -/
def isHeader : MPC (fun _ : Fin 2 => Nat) → Bool
  | .header .. => true
  | _ => false

/-- The hypotheses of the theorems hold, with `G.F.pc = .closed` at the end. -/
example : (lrun lstart (lschedule.map mlabel)).map (fun G =>
      (isClosedM G.F.pc && G.F.nBlocks == 2, [shown (G.F.cols 0).d.writes, shown (G.F.cols 1).d.writes])) =
    some (true, [[(0, [some 20, some 21]), (1, [some 22, some 23])], [(0, [some 30, some 31]), (1, [some 32, some 33])]]) := by
  decide +kernel

/-- The thread of column 0 has the mutex of the manager, and the client has to wait for it. -/
example : (lrun lstart ((lschedule.take 43).map mlabel)).map (fun G =>
      (G.owner == some (some ⟨0, (0 : Fin 1)⟩), (calls G.F).isSome, (lstep G (mlabel 0)).isSome, (msstep G.F (mlabel 0)).isSome)) =
    some (true, true, false, true) := by decide +kernel

/-- The thread of column 0 has set the position of the stream and is about to write; the thread of column 1 has to wait
before it may do the same. -/
example : (lrun lstart (([0, 0, 0, 0, 0, 0, 1, 0, 0, 1, 2, 1, 0, 2, 2, 1, 0, 0, 2, 0, 0, 0, 0, 0, 1, 1, 0, 0, 0, 1, 0, 1,
      1, 0, 0, 0, 0, 0, 0, 1, 2, 2, 2, 2, 0, 1, 2, 1]).map mlabel)).map (fun G =>
      (G.threads 0 (0 : Fin 1) == .sought, G.pos == some (0, 0), isWrite ((G.F.cols 1).threads (0 : Fin 1)),
        (lstep G (mlabel 2)).isSome, (msstep G.F (mlabel 2)).isSome)) =
    some (true, true, true, false, true) := by decide +kernel

/-- The client is about to write the header. -/
example : (lrun lstart ((lschedule.take 14).map mlabel)).map (fun G =>
      (isHeader G.F.pc, G.client == .header, G.owner.isSome)) = some (true, true, false) := by decide +kernel

end Dysco.Lock
