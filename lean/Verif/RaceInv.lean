import Verif.RaceLemmas

/-!
# What the threads know of each other

The invariant along a run of the manager: every variable is either protected by its mutex since some moment, up to
which only the client used it and which all users know of, or belongs to one thread.
-/

namespace Dysco.Multi
open Col Race
variable {K : Type} {c : Nat} {W : Fin c → Type} {P : (i : Fin c) → Params (W i) K} {S S' : MState P}
  {tr : List (MEv P)} {w : Thr P} {r : List (MAct P)} {X : Var c → Prop}

/-- The thread encodes a block. -/
def encoding (S : MState P) (w : Thr P) : Prop := ∃ i t b x, w = some ⟨i, t⟩ ∧ (S.cols i).threads t = .encode b x

/-- What a thread may use at any time. -/
def mayUse (S : MState P) (w : Thr P) : Var c → Prop
  | .mine _ => w = none
  | .obj i k => (w = none ∧ (S.cols i).stores.length ≤ k) ∨
    ∃ t b, w = some ⟨i, t⟩ ∧ ((S.cols i).threads t).on b ∧ k = lastIdx (S.cols i).stores b
  | _ => False

/-- What a thread may read at any time. -/
def mayRead (S : MState P) (w : Thr P) : Var c → Prop
  | .rows => True
  | .config i => w = none ∨ ∃ t, w = some ⟨i, t⟩
  | .layout => w = none ∨ encoding S w
  | _ => False

/-- What a thread may use with a mutex. -/
def mayHold (S : MState P) (w : Thr P) : Mut c → Var c → Prop
  | none, .nBlocks => w = none ∨ encoding S w
  | none, .stream => w = none ∨ encoding S w
  | some i, .cache j => i = j ∧ (w = none ∨ ∃ t, w = some ⟨i, t⟩)
  | some i, .stop j => i = j ∧ (w = none ∨ ∃ t, w = some ⟨i, t⟩)
  | some i, .rng j => i = j ∧ (w = none ∨ ∃ t, w = some ⟨i, t⟩)
  | _, _ => False

/-- The variables that are protected by the mutex of column `i`. -/
def guarded (i : Fin c) (l : Var c) : Prop := l = .cache i ∨ l = .stop i ∨ l = .rng i

/-- The variables of the manager that only encoding threads use. -/
def ofMan (l : Var c) : Prop := l = .nBlocks ∨ l = .stream ∨ l = .layout

/-- The rows per block are known to the column. -/
def begun (S : MState P) (i : Fin c) : Prop := (if uninit S i then 0 else S.rowsPerBlock) ≠ 0

/-- Nothing was encoded so far. -/
def early (S : MState P) : Prop :=
  S.rowsPerBlock = 0 ∨ (∃ i row v m, S.pc = .init i row v m) ∨ ∃ i row v, S.pc = .header i row v

/-- Who uses what. -/
structure RBase (S : MState P) (tr : List (MEv P)) : Prop where
  who : ∀ (j : Nat) (a : MEv P) i t, tr[j]? = some a → a.who = some ⟨i, t⟩ → begun S i
  own : ∀ (j : Nat) (a : MEv P) i l, tr[j]? = some a → Uses a l → guarded i l ∨ l = .config i → a.who = none ∨ ∃ t, a.who = some ⟨i, t⟩
  mine : ∀ (j : Nat) (a : MEv P) i, tr[j]? = some a → Uses a (.mine i) → a.who = none
  cur : ∀ (j : Nat) (a : MEv P) i k, tr[j]? = some a → Uses a (.obj i k) → (S.cols i).stores.length ≤ k → a.who = none
  early : Multi.early S → ∀ (j : Nat) (a : MEv P) l, tr[j]? = some a → Uses a l → ofMan l → a.who = none

/-- What the client knows about the variables of a column at place `n` of the trace. Not in the code. -/
structure ColOK (tr : List (MEv P)) (i : Fin c) (n : Nat) : Prop where
  le : n ≤ tr.length
  held : ∀ l, guarded i l → Held tr none n (some i) l
  rows : Fixed tr none n .rows
  config : Fixed tr none n (.config i)

/-- There is such a place, and the threads started after it. Not in the code. -/
def ColPart (S : MState P) (tr : List (MEv P)) (i : Fin c) : Prop :=
  ∃ n, ColOK tr i n ∧ (begun S i → ∀ t, Epoch tr none n (.thread (some ⟨i, t⟩)))

/-- What the client knows about the variables of the manager at place `n` of the trace. Not in the code. -/
structure ManOK (tr : List (MEv P)) (n : Nat) : Prop where
  le : n ≤ tr.length
  nBlocks : Held tr none n none .nBlocks
  stream : Held tr none n none .stream
  layout : Fixed tr none n .layout

/-- There is such a place, and threads that encode and columns with blocks in their cache came after it. Not in the code. -/
def ManPart (S : MState P) (tr : List (MEv P)) : Prop :=
  ∃ n, ManOK tr n ∧
    (∀ i t b x, (S.cols i).threads t = .encode b x → Epoch tr none n (.thread (some ⟨i, t⟩))) ∧
    ∀ i, (S.cols i).cache ≠ [] → Epoch tr none n (.mutex (some i))

/-- The buffers of the blocks. -/
structure Blocks (S : MState P) (tr : List (MEv P)) : Prop where
  stored : ∀ i b it, (b, it) ∈ (S.cols i).cache → ∃ x ∈ (S.cols i).stores, x.1 = b
  enc : ∀ i t b, ((S.cols i).threads t).on b → ∀ (j : Nat) (a : MEv P), tr[j]? = some a →
    Uses a (.obj i (lastIdx (S.cols i).stores b)) → Know tr (.thread (some ⟨i, t⟩)) j
  pend : ∀ i b it, (b, it) ∈ (S.cols i).cache → it.writing = false → ∀ (j : Nat) (a : MEv P), tr[j]? = some a →
    Uses a (.obj i (lastIdx (S.cols i).stores b)) → Know tr (.mutex (some i)) j

/-- The whole invariant of a trace. Not in the code. -/
structure RInv (S : MState P) (tr : List (MEv P)) : Prop where
  free : RaceFree tr
  base : RBase S tr
  col : ∀ i, ColPart S tr i
  man : ManPart S tr
  blocks : Blocks S tr

/-- What is known of the states that the manager gets to. -/
structure Sound (S : MState P) : Prop where
  place : Place S
  inv : ∀ i, ∃ f, Inv (P i) f (proj S i [])

theorem Sound.core (h : Sound S) (i : Fin c) : ∃ f, Core (P i) f (proj S i []) := by
  obtain ⟨f, hf⟩ := h.inv i
  exact ⟨f, hf.core⟩

theorem Sound.on_mem (h : Sound S) {i : Fin c} {t : Fin (P i).threads} {b : Nat} (ht : ((S.cols i).threads t).on b) :
    ∃ x, (b, ⟨x, true⟩) ∈ (S.cols i).cache := by
  obtain ⟨f, hf⟩ := h.core i
  rcases ht with ⟨x, ht⟩ | ht
  · exact ⟨x, hf.encoding t b x ht⟩
  · exact hf.writing t b ht

theorem Sound.one (h : Sound S) {i : Fin c} {t u : Fin (P i).threads} {b : Nat} (ht : ((S.cols i).threads t).on b)
    (hu : ((S.cols i).threads u).on b) : t = u := by
  obtain ⟨f, hf⟩ := h.core i
  exact hf.one t u b ht hu

theorem Sound.live (h : Sound S) {i : Fin c} {t : Fin (P i).threads} (ht : (S.cols i).threads t ≠ .done) :
    begun S i := by
  intro h1
  obtain ⟨f, hf⟩ := h.inv i
  exact ht (hf.core.idle (hf.offsets h1) t)

/-- Nothing is encoded early. -/
theorem Sound.early_on (h : Sound S) (he : early S) (i : Fin c) :
    (∀ t b, ¬ ((S.cols i).threads t).on b) := by
  intro t b ht
  obtain ⟨x, hx⟩ := h.on_mem ht
  have hb : begun S i := h.live (t := t) fun h1 => by
    rw [h1] at ht
    rcases ht with ⟨_, ht⟩ | ht <;> cases ht
  have hp := h.place
  unfold Place at hp
  rcases he with he | ⟨_, _, _, _, he⟩ | ⟨_, _, _, he⟩
  · exact hb (by rw [he]; split <;> rfl)
  · rw [he] at hp
    rw [(hp.2.2 i).2] at hx
    cases hx
  · rw [he] at hp
    rw [(hp.2.2 i).2] at hx
    cases hx

theorem Sound.early_encoding (h : Sound S) (he : Multi.early S) (w : Thr P) : ¬ encoding S w := by
  rintro ⟨i, t, b, x, _, h1⟩
  exact h.early_on he i t b (.inl ⟨x, h1⟩)

theorem Sound.early_cache (h : Sound S) (he : Multi.early S) (hr : S.rowsPerBlock = 0 → ∀ i, (S.cols i).client = .idle)
    (i : Fin c) : (S.cols i).cache = [] := by
  have hp := h.place
  unfold Place at hp
  rcases he with he | ⟨_, _, _, _, he⟩ | ⟨_, _, _, he⟩
  · obtain ⟨f, hf⟩ := h.inv i
    have h1 := hf.offsets (by show (if uninit S i then 0 else S.rowsPerBlock) = 0; rw [he]; split <;> rfl)
    have h2 := hf.client
    unfold ClientOK at h2
    have e : (proj S i []).client = .idle := hr he i
    rw [e] at h2
    exact (h2.2.2 h1).1
  · rw [he] at hp; exact (hp.2.2 i).2
  · rw [he] at hp; exact (hp.2.2 i).2

/-! ## The permissions are safe -/

theorem ready_use (h : RInv S tr) {l : Var c} (hl : mayUse S w l) : Ready tr w l := by
  intro j a hj hu
  cases l with
  | mine i => exact .self hj ((h.base.mine j a i hj hu).trans (show w = none from hl).symm)
  | obj i k =>
    rcases hl with ⟨rfl, h1⟩ | ⟨t, b, rfl, h1, rfl⟩
    · exact .self hj (h.base.cur j a i k hj hu h1)
    · exact h.blocks.enc i t b h1 j a hj hu
  | _ => exact (show False from hl).elim

theorem epoch_col (h : RInv S tr) (i : Fin c) (hw : ∀ i t, w = some ⟨i, t⟩ → begun S i)
    (h1 : w = none ∨ ∃ t, w = some ⟨i, t⟩) : ∃ n, ColOK tr i n ∧ Epoch tr none n (.thread w) := by
  obtain ⟨n, h2, h3⟩ := h.col i
  refine ⟨n, h2, ?_⟩
  rcases h1 with rfl | ⟨t, rfl⟩
  · exact .self
  · exact h3 (hw i t rfl) t

theorem epoch_man (h : RInv S tr) (h1 : w = none ∨ encoding S w) : ∃ n, ManOK tr n ∧ Epoch tr none n (.thread w) := by
  obtain ⟨n, h2, h3, -⟩ := h.man
  refine ⟨n, h2, ?_⟩
  rcases h1 with rfl | ⟨i, t, b, x, rfl, h4⟩
  · exact .self
  · exact h3 i t b x h4

theorem ready_read (h : RInv S tr) (hw : ∀ i t, w = some ⟨i, t⟩ → begun S i) {l : Var c} (hl : mayRead S w l) :
    ReadyR tr w l := by
  cases l with
  | rows =>
    cases w with
    | none =>
      intro j a hj hu
      by_cases h0 : a.who = none
      · exact .self hj h0
      · obtain ⟨⟨i, t⟩, h1⟩ := Option.ne_none_iff_exists'.mp h0
        obtain ⟨n, h2, _⟩ := h.col i
        exact .self hj (h2.rows j a hj hu).1
    | some x =>
      obtain ⟨n, h2, h3⟩ := epoch_col h x.1 hw (.inr ⟨x.2, rfl⟩)
      exact h2.rows.ready h3
  | config i =>
    obtain ⟨n, h2, h3⟩ := epoch_col h i hw hl
    exact h2.config.ready h3
  | layout =>
    obtain ⟨n, h2, h3⟩ := epoch_man h hl
    exact h2.layout.ready h3
  | _ => exact (show False from hl).elim

theorem guard_hold (h : RInv S tr) (hw : ∀ i t, w = some ⟨i, t⟩ → begun S i) {m : Mut c} {l : Var c}
    (hl : mayHold S w m l) : Guard tr w m l := by
  cases m with
  | none =>
    cases l with
    | nBlocks =>
      obtain ⟨n, h2, h3⟩ := epoch_man h hl
      exact h2.nBlocks.guard h3
    | stream =>
      obtain ⟨n, h2, h3⟩ := epoch_man h hl
      exact h2.stream.guard h3
    | _ => exact (show False from hl).elim
  | some i =>
    cases l with
    | cache j =>
      obtain ⟨rfl, hl⟩ := hl
      obtain ⟨n, h2, h3⟩ := epoch_col h i hw hl
      exact (h2.held _ (.inl rfl)).guard h3
    | stop j =>
      obtain ⟨rfl, hl⟩ := hl
      obtain ⟨n, h2, h3⟩ := epoch_col h i hw hl
      exact (h2.held _ (.inr (.inl rfl))).guard h3
    | rng j =>
      obtain ⟨rfl, hl⟩ := hl
      obtain ⟨n, h2, h3⟩ := epoch_col h i hw hl
      exact (h2.held _ (.inr (.inr rfl))).guard h3
    | _ => exact (show False from hl).elim

/-- The list of actions keeps to the permissions, with the additional variables `X`. -/
abbrev Ok (S : MState P) (w : Thr P) (X : Var c → Prop) (r : List (MAct P)) : Prop :=
  Prog (fun l => mayUse S w l ∨ X l) (mayRead S w) (mayHold S w) none r

/-- Additional variables for the client. -/
structure Extra (w : Thr P) (X : Var c → Prop) : Prop where
  client : ∀ l, X l → w = none
  mine : ∀ i, ¬ X (.mine i)
  obj : ∀ i k, ¬ X (.obj i k)

theorem extra_none : Extra w fun _ => False := ⟨fun _ => False.elim, fun _ => id, fun _ _ => id⟩

theorem free_step (h : RInv S tr) (hw : ∀ i t, w = some ⟨i, t⟩ → begun S i) (hp : Ok S w X r)
    (hX : ∀ l, X l → Ready tr w l) : RaceFree (tr ++ by_ w r) := by
  refine prog_raceFree hp h.free ?_ (fun l hl => ready_read h hw hl) (fun m l hl => guard_hold h hw hl)
  rintro l (hl | hl)
  · exact ready_use h hl
  · exact hX l hl

theorem uses_new (hp : Ok S w X r) {j : Nat} {a : MEv P} {l : Var c} (hj : (tr ++ by_ w r)[j]? = some a)
    (hu : Uses a l) : tr[j]? = some a ∨
      (a.who = w ∧ (mayUse S w l ∨ X l ∨ (a.act = .read l ∧ mayRead S w l) ∨ ∃ m, mayHold S w m l)) := by
  rcases by_who hj with h1 | ⟨h1, h2, _⟩
  · exact .inl h1
  · refine .inr ⟨h1, ?_⟩
    rcases prog_uses hp h2 hu with (h3 | h3) | h3 | h3
    · exact .inl h3
    · exact .inr (.inl h3)
    · exact .inr (.inr (.inl h3))
    · exact .inr (.inr (.inr h3))

theorem base_step (h : RInv S tr) (hs : Sound S) (hx : Extra w X) (hp : Ok S w X r)
    (hw : ∀ i t, w = some ⟨i, t⟩ → begun S' i) (hb : ∀ i, begun S i → begun S' i)
    (he : early S' → early S) (hl : ∀ i, (S.cols i).stores.length ≤ (S'.cols i).stores.length) :
    RBase S' (tr ++ by_ w r) := by
  refine ⟨?_, ?_, ?_, ?_, ?_⟩
  · intro j a i t hj ha
    rcases by_who hj with h1 | ⟨h1, _⟩
    · exact hb i (h.base.who j a i t h1 ha)
    · exact hw i t (h1 ▸ ha)
  · intro j a i l hj hu hg
    rcases uses_new hp hj hu with h1 | ⟨h1, h2⟩
    · exact h.base.own j a i l h1 hu hg
    · rw [h1]
      rcases h2 with h2 | h2 | ⟨-, h2⟩ | ⟨m, h2⟩
      · rcases hg with (rfl | rfl | rfl) | rfl <;> exact (show False from h2).elim
      · exact .inl (hx.client l h2)
      · rcases hg with (rfl | rfl | rfl) | rfl
        · exact (show False from h2).elim
        · exact (show False from h2).elim
        · exact (show False from h2).elim
        · exact h2
      · rcases hg with (rfl | rfl | rfl) | rfl <;> cases m <;> first
          | exact (show False from h2).elim
          | (obtain ⟨rfl, h2⟩ := h2; exact h2)
  · intro j a i hj hu
    rcases uses_new hp hj hu with h1 | ⟨h1, h2⟩
    · exact h.base.mine j a i h1 hu
    · rw [h1]
      rcases h2 with h2 | h2 | ⟨-, h2⟩ | ⟨m, h2⟩
      · exact h2
      · exact hx.client _ h2
      · exact (show False from h2).elim
      · cases m <;> exact (show False from h2).elim
  · intro j a i k hj hu hk
    rcases uses_new hp hj hu with h1 | ⟨h1, h2⟩
    · exact h.base.cur j a i k h1 hu ((hl i).trans hk)
    · rw [h1]
      rcases h2 with h2 | h2 | ⟨-, h2⟩ | ⟨m, h2⟩
      · rcases h2 with h2 | ⟨t, b, _, h3, h4⟩
        · exact h2.1
        · obtain ⟨x, hx⟩ := hs.on_mem h3
          have := lastIdx_lt (h.blocks.stored i b _ hx)
          have := hl i
          omega
      · exact hx.client _ h2
      · exact (show False from h2).elim
      · cases m <;> exact (show False from h2).elim
  · intro he' j a l hj hu hg
    have hes := he he'
    have hne := hs.early_encoding hes w
    rcases uses_new hp hj hu with h1 | ⟨h1, h2⟩
    · exact h.base.early hes j a l h1 hu hg
    · rw [h1]
      rcases h2 with h2 | h2 | ⟨-, h2⟩ | ⟨m, h2⟩
      · rcases hg with rfl | rfl | rfl <;> exact (show False from h2).elim
      · exact hx.client _ h2
      · rcases hg with rfl | rfl | rfl
        · exact (show False from h2).elim
        · exact (show False from h2).elim
        · exact h2.resolve_right hne
      · rcases hg with rfl | rfl | rfl <;> cases m <;> first
          | exact (show False from h2).elim
          | exact h2.resolve_right hne

theorem ok_flushed (hp : Ok S w X r) {i : Fin c} {l : Var c} (hg : guarded i l) (hX : ¬ X l) : Flushed (some i) l r := by
  refine (prog_flushed hp ?_ ?_ ?_).1
  · rintro (h1 | h1)
    · rcases hg with rfl | rfl | rfl <;> exact h1
    · exact hX h1
  · intro h1
    rcases hg with rfl | rfl | rfl <;> exact h1
  · intro m h1
    rcases hg with rfl | rfl | rfl <;> cases m <;> first
      | exact (show False from h1).elim
      | rw [h1.1]

theorem ok_flushed_man (hp : Ok S w X r) {l : Var c} (hg : l = .nBlocks ∨ l = .stream) (hX : ¬ X l) :
    Flushed none l r := by
  refine (prog_flushed hp ?_ ?_ ?_).1
  · rintro (h1 | h1)
    · rcases hg with rfl | rfl <;> exact h1
    · exact hX h1
  · intro h1
    rcases hg with rfl | rfl <;> exact h1
  · intro m h1
    rcases hg with rfl | rfl <;> cases m <;> first
      | exact (show False from h1).elim
      | rfl

theorem ok_fixed (hp : Ok S w X r) {l : Var c} (hg : l = .rows ∨ l = .layout ∨ ∃ i, l = .config i) (hX : ¬ X l) :
    ∀ a ∈ r, a ≠ .write l := by
  rintro a ha rfl
  rcases prog_uses hp ha (.inr rfl) with (h1 | h1) | ⟨h1, _⟩ | ⟨m, h1⟩
  · rcases hg with rfl | rfl | ⟨i, rfl⟩ <;> exact h1
  · exact hX h1
  · cases h1
  · rcases hg with rfl | rfl | ⟨i, rfl⟩ <;> cases m <;> exact h1

theorem colOK_keep {i : Fin c} {n : Nat} (h : ColOK tr i n) (hp : Ok S w X r) (hg : ∀ l, guarded i l → ¬ X l)
    (hr : ¬ X .rows) (hc : ¬ X (.config i)) : ColOK (tr ++ by_ w r) i n where
  le := by rw [List.length_append]; exact h.le.trans (Nat.le_add_right _ _)
  held l hl := (h.held l hl).append (ok_flushed hp hl (hg l hl))
  rows := h.rows.append (ok_fixed hp (.inl rfl) hr)
  config := h.config.append (ok_fixed hp (.inr (.inr ⟨i, rfl⟩)) hc)

theorem colOK_float {i : Fin c} {n : Nat} (h : ColOK tr i n) :
    ColOK (tr ++ by_ none r) i (tr ++ by_ none r).length where
  le := le_rfl
  held l hl := (h.held l hl).float h.le
  rows := h.rows.float
  config := h.config.float

theorem col_keep {i : Fin c} (h : ColPart S tr i) (hp : Ok S w X r) (hg : ∀ l, guarded i l → ¬ X l)
    (hr : ¬ X .rows) (hc : ¬ X (.config i)) (hb : begun S' i → begun S i) : ColPart S' (tr ++ by_ w r) i := by
  obtain ⟨n, h1, h2⟩ := h
  exact ⟨n, colOK_keep h1 hp hg hr hc, fun h3 t => (h2 (hb h3) t).append h1.le⟩

theorem manOK_keep {n : Nat} (h : ManOK tr n) (hp : Ok S w X r) (hX : ∀ l, ofMan l → ¬ X l) :
    ManOK (tr ++ by_ w r) n where
  le := by rw [List.length_append]; exact h.le.trans (Nat.le_add_right _ _)
  nBlocks := h.nBlocks.append (ok_flushed_man hp (.inl rfl) (hX _ (.inl rfl)))
  stream := h.stream.append (ok_flushed_man hp (.inr rfl) (hX _ (.inr (.inl rfl))))
  layout := h.layout.append (ok_fixed hp (.inr (.inl rfl)) (hX _ (.inr (.inr rfl))))

theorem manOK_float {n : Nat} (h : ManOK tr n) : ManOK (tr ++ by_ none r) (tr ++ by_ none r).length where
  le := le_rfl
  nBlocks := h.nBlocks.float h.le
  stream := h.stream.float h.le
  layout := h.layout.float

/-- A step after which the cache has no new items, and no thread has a block that it did not have. -/
structure Quiet (S S' : MState P) : Prop where
  cache : ∀ i x, x ∈ (S'.cols i).cache → x ∈ (S.cols i).cache
  stores : ∀ i, (S'.cols i).stores = (S.cols i).stores
  encode : ∀ i t b x, (S'.cols i).threads t = .encode b x → (S.cols i).threads t = .encode b x
  on : ∀ i t b, ((S'.cols i).threads t).on b → ((S.cols i).threads t).on b

theorem man_keep (h : ManPart S tr) (hp : Ok S w X r) (hX : ∀ l, ofMan l → ¬ X l) (hq : Quiet S S') :
    ManPart S' (tr ++ by_ w r) := by
  obtain ⟨n, h1, h2, h3⟩ := h
  refine ⟨n, manOK_keep h1 hp hX, fun i t b x h4 => (h2 i t b x (hq.encode i t b x h4)).append h1.le, fun i h4 => ?_⟩
  refine (h3 i fun h5 => h4 ?_).append h1.le
  refine List.eq_nil_iff_forall_not_mem.mpr fun x hx => ?_
  have := hq.cache i x hx
  rw [h5] at this
  cases this

theorem man_float (h : ManPart S tr) (h1 : ∀ i t b x, (S'.cols i).threads t ≠ .encode b x)
    (h2 : ∀ i, (S'.cols i).cache = []) : ManPart S' (tr ++ by_ none r) := by
  obtain ⟨n, h3, _⟩ := h
  exact ⟨_, manOK_float h3, fun i t b x h4 => (h1 i t b x h4).elim, fun i h4 => (h4 (h2 i)).elim⟩

/-- The uses of the buffer of a block that the thread does not have. -/
theorem obj_old (hs : Sound S) (h : RInv S tr) (hx : Extra w X) (hp : Ok S w X r) {i : Fin c} {b : Nat}
    (hb : ∃ x ∈ (S.cols i).stores, x.1 = b) (hw : ∀ t, w = some ⟨i, t⟩ → ¬ ((S.cols i).threads t).on b)
    {j : Nat} {a : MEv P} (hj : (tr ++ by_ w r)[j]? = some a) (hu : Uses a (.obj i (lastIdx (S.cols i).stores b))) :
    tr[j]? = some a := by
  rcases uses_new hp hj hu with h1 | ⟨_, h2⟩
  · exact h1
  · rcases h2 with h2 | h2 | ⟨-, h2⟩ | ⟨m, h2⟩
    · rcases h2 with ⟨_, h2⟩ | ⟨t, b', h3, h4, h5⟩
      · have := lastIdx_lt hb
        omega
      · obtain ⟨x, hx⟩ := hs.on_mem h4
        have := lastIdx_inj hb (h.blocks.stored i b' _ hx) h5
        subst this
        exact (hw t h3 h4).elim
    · exact (hx.obj _ _ h2).elim
    · exact (show False from h2).elim
    · cases m <;> exact (show False from h2).elim

theorem blocks_keep (hs : Sound S) (h : RInv S tr) (hx : Extra w X) (hp : Ok S w X r) (hq : Quiet S S') :
    Blocks S' (tr ++ by_ w r) := by
  refine ⟨fun i b it hm => ?_, fun i t b ht j a hj hu => ?_, fun i b it hm hw j a hj hu => ?_⟩
  · rw [hq.stores]
    exact h.blocks.stored i b it (hq.cache i _ hm)
  · rw [hq.stores] at hu
    have ht' := hq.on i t b ht
    obtain ⟨x, hm⟩ := hs.on_mem ht'
    by_cases hwt : w = some ⟨i, t⟩
    · rcases by_who hj with h1 | ⟨h1, _⟩
      · exact (h.blocks.enc i t b ht' j a h1 hu).mono
      · exact .self hj (h1.trans hwt)
    · have h1 := obj_old hs h hx hp (h.blocks.stored i b _ hm) (fun t' h2 h3 => hwt (by
        rw [h2, hs.one h3 ht'])) hj hu
      exact (h.blocks.enc i t b ht' j a h1 hu).mono
  · rw [hq.stores] at hu
    have hm' := hq.cache i _ hm
    have h1 := obj_old hs h hx hp (h.blocks.stored i b _ hm') (fun t' _ h3 => by
      obtain ⟨y, hy⟩ := hs.on_mem h3
      obtain ⟨f, hf⟩ := hs.core i
      have := keys_unique hf.keys hm' hy
      rw [this] at hw
      cases hw) hj hu
    exact (h.blocks.pend i b it hm' hw j a h1 hu).mono

/-- A step that keeps to the permissions and after which nothing new is in the cache or being encoded. -/
theorem quiet_step (hs : Sound S) (h : RInv S tr) (hw : ∀ i t, w = some ⟨i, t⟩ → begun S i)
    (hp : Ok S w (fun _ => False) r) (hq : Quiet S S') (hb : ∀ i, begun S i ↔ begun S' i)
    (he : early S' → early S) : RInv S' (tr ++ by_ w r) where
  free := free_step h hw hp fun _ => False.elim
  base := base_step h hs extra_none hp (fun i t hx => (hb i).mp (hw i t hx)) (fun i => (hb i).mp) he
    fun i => by rw [hq.stores]
  col i := col_keep (h.col i) hp (fun _ _ => id) id id (hb i).mpr
  man := man_keep h.man hp (fun _ _ => id) hq
  blocks := blocks_keep hs h extra_none hp hq

end Dysco.Multi
