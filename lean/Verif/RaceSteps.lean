import Verif.RaceInv

/-! # The invariant of the accesses is kept by every step -/

namespace Dysco.Multi
open Col Race
variable {K : Type} {c : Nat} {W : Fin c → Type} {P : (i : Fin c) → Params (W i) K} {S S' : MState P}
  {tr : List (MEv P)}

/-- `Quiet` for one column. -/
structure QuietCol {V : Type} {n : Nat} (s s' : State V K n) : Prop where
  cache : ∀ x, x ∈ s'.cache → x ∈ s.cache
  stores : s'.stores = s.stores
  encode : ∀ t b x, s'.threads t = .encode b x → s.threads t = .encode b x
  on : ∀ t b, (s'.threads t).on b → (s.threads t).on b

theorem QuietCol.refl {V : Type} {n : Nat} {s s' : State V K n} (h1 : s'.cache = s.cache) (h2 : s'.stores = s.stores)
    (h3 : s'.threads = s.threads) : QuietCol s s' :=
  ⟨fun _ hx => h1 ▸ hx, h2, fun _ _ _ hx => h3 ▸ hx, fun _ _ hx => h3 ▸ hx⟩

theorem QuietCol.wake {V : Type} {n : Nat} {s s' : State V K n} (h1 : s'.cache = s.cache) (h2 : s'.stores = s.stores)
    (h3 : s'.threads = fun t => (s.threads t).wake) : QuietCol s s' := by
  refine ⟨fun _ hx => h1 ▸ hx, h2, fun t b x hx => ?_, fun t b hx => ?_⟩
  · rw [h3] at hx; exact wake_eq_encode.mp hx
  · rw [h3] at hx; exact wake_on.mp hx

theorem quiet_of {i : Fin c} {s : State (W i) K (P i).threads} (h : QuietCol (S.cols i) s)
    (e : S'.cols = Function.update S.cols i s) : Quiet S S' := by
  refine ⟨fun j x hx => ?_, fun j => ?_, fun j t b x hx => ?_, fun j t b hx => ?_⟩ <;> by_cases hj : j = i
  · subst hj; rw [e, Function.update_self] at hx; exact h.cache x hx
  · rw [e, Function.update_of_ne hj] at hx; exact hx
  · subst hj; rw [e, Function.update_self]; exact h.stores
  · rw [e, Function.update_of_ne hj]
  · subst hj; rw [e, Function.update_self] at hx; exact h.encode t b x hx
  · rw [e, Function.update_of_ne hj] at hx; exact hx
  · subst hj; rw [e, Function.update_self] at hx; exact h.on t b hx
  · rw [e, Function.update_of_ne hj] at hx; exact hx

theorem quiet_refl (e : S'.cols = S.cols) : Quiet S S' :=
  ⟨fun _ _ hx => e ▸ hx, fun i => by rw [e], fun _ _ _ _ hx => e ▸ hx, fun _ _ _ hx => e ▸ hx⟩

/-! ## Threads -/

theorem seek_ok {i : Fin c} {t : Fin (P i).threads} (ht : (S.cols i).threads t = .head ∨ (S.cols i).threads t = .woken) :
    Ok S (some ⟨i, t⟩) (fun _ => False) (threadActs P i (S.view i) t) ∧
      Act.acquire (some i) ∈ threadActs P i (S.view i) t := by
  unfold threadActs
  have e : (S.view i).threads t = (S.cols i).threads t := rfl
  rw [e]
  rcases ht with ht | ht <;> rw [ht] <;> simp [Prog, seekActs, mayUse, mayRead, mayHold]

/-- A thread takes an item. -/
theorem take_step (hs : Sound S) (h : RInv S tr) {i : Fin c} {t : Fin (P i).threads}
    (ht : (S.cols i).threads t = .head ∨ (S.cols i).threads t = .woken) {b : Nat} {it : Item (W i)}
    (ha : (S.cols i).cache.available = some (b, it)) {s : State (W i) K (P i).threads}
    (e1 : s.cache = (S.cols i).cache.take b)
    (e2 : s.threads = Function.update (S.cols i).threads t (.encode b it.rows)) (e3 : s.stores = (S.cols i).stores) :
    RInv (S.set i s) (tr ++ by_ (some ⟨i, t⟩) (threadActs P i (S.view i) t)) := by
  obtain ⟨hp, hacq⟩ := seek_ok ht
  obtain ⟨ha1, ha2⟩ := available_some ha
  have hoff : ∀ b, ¬ ((S.cols i).threads t).on b := by
    rintro b (⟨_, h1⟩ | h1) <;> rcases ht with ht | ht <;> rw [ht] at h1 <;> cases h1
  have hlive : begun S i := hs.live (t := t) fun h1 => by rcases ht with ht | ht <;> rw [ht] at h1 <;> cases h1
  have hw : ∀ i' t', (some ⟨i, t⟩ : Thr P) = some ⟨i', t'⟩ → begun S i' := by
    intro i' t' h1
    injection h1 with h1
    injection h1 with h1 _
    exact h1 ▸ hlive
  have hst : ∀ j, ((S.set i s).cols j).stores = (S.cols j).stores := by
    intro j
    by_cases hj : j = i
    · subst hj; rw [set_self, e3]
    · rw [set_same S s hj]
  have hnil : ∀ j, ((S.set i s).cols j).cache ≠ [] → (S.cols j).cache ≠ [] := by
    intro j
    by_cases hj : j = i
    · subst hj; rw [set_self, e1]; exact fun h1 h2 => h1 ((take_nil _ _).mpr h2)
    · rw [set_same S s hj]; exact id
  refine ⟨free_step h hw hp fun _ => False.elim, base_step h hs extra_none hp hw (fun _ => id) id
    fun j => by rw [hst], fun j => col_keep (h.col j) hp (fun _ _ => id) id id id, ?_, ?_⟩
  · obtain ⟨n, h1, h2, h3⟩ := h.man
    refine ⟨n, manOK_keep h1 hp fun _ _ => id, ?_, fun j hj => (h3 j (hnil j hj)).append h1.le⟩
    intro j u b' x hx
    by_cases hju : (⟨j, u⟩ : (i : Fin c) × Fin (P i).threads) = ⟨i, t⟩
    · rw [hju]
      refine Epoch.acquire (h3 i fun h4 => ?_) h1.le hacq
      rw [h4] at ha1
      cases ha1
    · by_cases hj : j = i
      · subst hj
        have hu : u ≠ t := fun h5 => hju (by rw [h5])
        rw [set_self, e2, Function.update_of_ne hu] at hx
        exact (h2 j u b' x hx).append h1.le
      · rw [set_same S s hj] at hx
        exact (h2 j u b' x hx).append h1.le
  · -- an item that is not being written, or another one, was there
    have hmem : ∀ j b' it', (b', it') ∈ ((S.set i s).cols j).cache →
        (∃ it'', (b', it'') ∈ (S.cols j).cache) ∧ (it'.writing = false → (b', it') ∈ (S.cols j).cache ∧ (j = i → b' ≠ b)) := by
      intro j b' it' hm
      by_cases hj : j = i
      · subst hj
        rw [set_self, e1] at hm
        rcases (mem_take _ _ _).mp hm with ⟨h1, h2⟩ | ⟨h1, h2, y, h3⟩
        · exact ⟨⟨it', h1⟩, fun _ => ⟨h1, fun _ => h2⟩⟩
        · refine ⟨⟨⟨it'.rows, y⟩, ?_⟩, fun h4 => ?_⟩
          · rw [show b' = b from h1]; exact h3
          · rw [show it'.writing = true from h2] at h4; cases h4
      · rw [set_same S s hj] at hm
        exact ⟨⟨it', hm⟩, fun _ => ⟨hm, fun h1 => (hj h1).elim⟩⟩
    have hobj : ∀ j b', (∃ x ∈ (S.cols j).stores, x.1 = b') → ∀ (q : Nat) (a : MEv P),
        (tr ++ by_ (some ⟨i, t⟩) (threadActs P i (S.view i) t))[q]? = some a →
        Uses a (.obj j (lastIdx (S.cols j).stores b')) → tr[q]? = some a := by
      intro j b' hb' q a hq hu
      refine obj_old hs h extra_none hp hb' ?_ hq hu
      intro u h1
      injection h1 with h1
      injection h1 with h1 h2
      subst h1
      cases h2
      exact hoff b'
    refine ⟨fun j b' it' hm => ?_, fun j u b' hu q a hq hx => ?_, fun j b' it' hm hwr q a hq hx => ?_⟩
    · rw [hst]
      obtain ⟨⟨it'', h1⟩, _⟩ := hmem j b' it' hm
      exact h.blocks.stored j b' it'' h1
    · rw [hst] at hx
      by_cases hju : (⟨j, u⟩ : (i : Fin c) × Fin (P i).threads) = ⟨i, t⟩
      · rw [hju]
        injection hju with h1 h2
        subst h1
        cases h2
        obtain rfl : b' = b := by
          rw [set_self, e2, Function.update_self] at hu
          rcases hu with ⟨x, h1⟩ | h1
          · injection h1 with h1 _; exact h1.symm
          · cases h1
        have hq' := hobj j b' (h.blocks.stored j b' it ha1) q a hq hx
        exact know_acquire_mem (h.blocks.pend j b' it ha1 ha2 q a hq' hx) hacq
      · have hu' : ((S.cols j).threads u).on b' := by
          by_cases hj : j = i
          · subst hj
            have hut : u ≠ t := fun h5 => hju (by rw [h5])
            rwa [set_self, e2, Function.update_of_ne hut] at hu
          · rwa [set_same S s hj] at hu
        obtain ⟨y, hy⟩ := hs.on_mem hu'
        have hq' := hobj j b' (h.blocks.stored j b' _ hy) q a hq hx
        exact (h.blocks.enc j u b' hu' q a hq' hx).mono
    · rw [hst] at hx
      obtain ⟨h1, _⟩ := (hmem j b' it' hm).2 hwr
      have hq' := hobj j b' (h.blocks.stored j b' it' h1) q a hq hx
      exact (h.blocks.pend j b' it' h1 hwr q a hq' hx).mono

/-- A step of a thread that does not take an item. -/
theorem thread_quiet (hs : Sound S) (h : RInv S tr) {i : Fin c} {t : Fin (P i).threads}
    (ht : (S.cols i).threads t ≠ .done) {r : List (MAct P)} (hp : Ok S (some ⟨i, t⟩) (fun _ => False) r)
    {s : State (W i) K (P i).threads} (hq : QuietCol (S.cols i) s) :
    RInv (S.set i s) (tr ++ by_ (some ⟨i, t⟩) r) := by
  refine quiet_step hs h ?_ hp (quiet_of hq rfl) (fun _ => Iff.rfl) id
  intro i' t' h1
  injection h1 with h1
  injection h1 with h1 _
  exact h1 ▸ hs.live ht

theorem quiet_update {i : Fin c} {t : Fin (P i).threads} {s : State (W i) K (P i).threads} {x : ThreadPC (W i)}
    (e1 : ∀ y ∈ s.cache, y ∈ (S.cols i).cache) (e2 : s.threads = Function.update (S.cols i).threads t x)
    (e3 : s.stores = (S.cols i).stores) (hx : ∀ b y, x ≠ .encode b y) (hon : ∀ b, x.on b → ((S.cols i).threads t).on b) :
    QuietCol (S.cols i) s := by
  refine ⟨e1, e3, fun u b y hu => ?_, fun u b hu => ?_⟩
  · rw [e2] at hu
    by_cases h : u = t
    · subst h; rw [Function.update_self] at hu; exact (hx b y hu).elim
    · rwa [Function.update_of_ne h] at hu
  · rw [e2] at hu
    by_cases h : u = t
    · subst h; rw [Function.update_self] at hu; exact hon b hu
    · rwa [Function.update_of_ne h] at hu

theorem thread_step (hs : Sound S) (h : RInv S tr) {i : Fin c} {t : Fin (P i).threads}
    (e : mstep S (.thread i t) = some S') : RInv S' (tr ++ events S (.thread i t)) := by
  simp only [mstep, Option.map_eq_some_iff] at e
  obtain ⟨s, e, rfl⟩ := e
  show RInv (S.set i s) (tr ++ by_ (some ⟨i, t⟩) (threadActs P i (S.view i) t))
  have hseek : (S.cols i).threads t = .head ∨ (S.cols i).threads t = .woken → s = (S.view i).seek t →
      RInv (S.set i s) (tr ++ by_ (some ⟨i, t⟩) (threadActs P i (S.view i) t)) := by
    intro ht es
    have hnd : (S.cols i).threads t ≠ .done := by rcases ht with ht | ht <;> rw [ht] <;> simp
    unfold State.seek at es
    cases ha : (S.cols i).cache.available with
    | none =>
      have ha' : (S.view i).cache.available = none := ha
      rw [ha'] at es
      subst es
      refine thread_quiet hs h hnd (seek_ok ht).1
        (quiet_update (t := t) (x := if (S.view i).stop then .done else .wait) (fun _ => id) rfl rfl ?_ ?_)
      · intro b y; split <;> simp
      · intro b hb
        split at hb <;> rcases hb with ⟨_, hb⟩ | hb <;> cases hb
    | some x =>
      have ha' : (S.view i).cache.available = some x := ha
      rw [ha'] at es
      subst es
      exact take_step hs h ht ha rfl rfl rfl
  unfold threadStep at e
  have ev : (S.view i).threads t = (S.cols i).threads t := rfl
  rw [ev] at e
  cases ht : (S.cols i).threads t with
  | head =>
    rw [ht] at e
    simp only at e
    split at e
    · injection e with e
      subst e
      refine thread_quiet hs h (by rw [ht]; simp) (seek_ok (.inl ht)).1
        (quiet_update (t := t) (x := .done) (fun _ => id) rfl rfl (by simp) ?_)
      rintro b (⟨_, hb⟩ | hb) <;> cases hb
    · injection e with e
      exact hseek (.inl ht) e.symm
  | woken =>
    rw [ht] at e
    injection e with e
    exact hseek (.inr ht) e.symm
  | encode b x =>
    rw [ht] at e
    simp only at e
    split at e
    · cases e
    · injection e with e
      have hon : ((S.cols i).threads t).on b := .inl ⟨x, ht⟩
      have henc : encoding S (some ⟨i, t⟩) := ⟨i, t, b, x, rfl, ht⟩
      subst e
      refine thread_quiet hs h (by rw [ht]; simp) ?_
        (quiet_update (t := t) (x := .written b) (fun _ => id) rfl rfl (by simp) ?_)
      · unfold threadActs
        rw [ev, ht]
        have huse : mayUse S (some ⟨i, t⟩) (.obj i (lastIdx (S.cols i).stores b)) := .inr ⟨t, b, rfl, hon, rfl⟩
        have hv : (S.view i).stores = (S.cols i).stores := rfl
        simp only [Prog, hv]
        simp [mayRead, mayHold, huse, henc]
      · rintro b' (⟨_, hb⟩ | hb)
        · cases hb
        · injection hb with hb
          exact hb ▸ hon
  | written b =>
    rw [ht] at e
    injection e with e
    have hon : ((S.cols i).threads t).on b := .inr ht
    subst e
    refine thread_quiet hs h (by rw [ht]; simp) ?_ ?_
    · unfold threadActs
      rw [ev, ht]
      have huse : mayUse S (some ⟨i, t⟩) (.obj i (lastIdx (S.cols i).stores b)) := .inr ⟨t, b, rfl, hon, rfl⟩
      have hv : (S.view i).stores = (S.cols i).stores := rfl
      simp only [Prog, hv]
      simp [mayHold, huse]
    · have hup : ∀ u (x : ThreadPC (W i)), ((Function.update (S.cols i).threads t .head) u).wake = x →
          u ≠ t ∧ ((S.cols i).threads u).wake = x ∨ u = t ∧ x = .head := by
        intro u x hx
        by_cases hu : u = t
        · subst hu; rw [Function.update_self] at hx; exact .inr ⟨rfl, hx.symm⟩
        · rw [Function.update_of_ne hu] at hx; exact .inl ⟨hu, hx⟩
      refine ⟨fun x hx => ((mem_remove _ _ _).mp hx).1, rfl, fun u b' x hx => ?_, fun u b' hx => ?_⟩
      · rcases hup u _ hx with ⟨_, h1⟩ | ⟨_, h1⟩
        · exact wake_eq_encode.mp h1
        · cases h1
      · rcases hup u _ rfl with ⟨_, h1⟩ | ⟨_, h1⟩
        · exact wake_on.mp (h1 ▸ hx)
        · have hx' : (((Function.update (S.cols i).threads t .head) u).wake).on b' := hx
          rw [h1] at hx'
          rcases hx' with ⟨_, h2⟩ | h2 <;> cases h2
  | wait => rw [ht] at e; cases e
  | done => rw [ht] at e; cases e

/-! ## The client in a call of a column -/

theorem finish_ok (i : Fin c) : Ok S none (fun _ => False) (finishActs P i (S.view i)) := by
  have hv : (S.view i).stores = (S.cols i).stores := rfl
  simp [finishActs, Prog, mayUse, mayRead, mayHold, curObj, hv]

theorem access_ok (i : Fin c) (k : Next (W i)) : Ok S none (fun _ => False) (accessActs P i (S.view i) k) := by
  refine prog_append (by simp [Prog, mayUse, mayRead]) ?_
  split
  · rfl
  · exact finish_ok i

theorem put_ok (i : Fin c) (row : Nat) (v : W i) : Ok S none (fun _ => False) (putActs P i (S.view i) row v) := by
  unfold putActs
  split
  · exact access_ok i _
  · exact ⟨.inl (.inl rfl), finish_ok i⟩

theorem get_ok (i : Fin c) : Ok S none (fun _ => False) (getActs P (S.view i)) := by
  unfold getActs
  split <;> simp [Prog, mayRead, mayHold]

theorem join_ok {X : Var c → Prop} {w : Thr P} (l : List (Thr P)) : Ok S w X (l.map Act.join) := by
  induction l with
  | nil => rfl
  | cons a l ih => exact ih

theorem create_ok {X : Var c → Prop} {w : Thr P} (l : List (Thr P)) : Ok S w X (l.map Act.create) := by
  induction l with
  | nil => rfl
  | cons a l ih => exact ih

theorem begun_same (h : ∀ i, uninit S i = uninit S' i) (hr : S'.rowsPerBlock = S.rowsPerBlock) (i : Fin c) :
    begun S i ↔ begun S' i := by
  unfold begun
  rw [h i, hr]

theorem no_worker (i : Fin c) (t : Fin (P i).threads) : (none : Thr P) = some ⟨i, t⟩ → begun S i := by
  intro h
  cases h

/-- The list of actions of a store, whether it stores or waits. -/
theorem store_ok (i : Fin c) {k : After (W i)} (hc : (S.cols i).client = .store k) :
    Ok S none (fun _ => False) (callActs i (S.view i)) := by
  have hv : (S.view i).stores = (S.cols i).stores := rfl
  have hv2 : (S.view i).client = .store k := hc
  unfold callActs
  rw [hv2]
  simp only
  split <;> simp [Prog, mayUse, mayRead, mayHold, curObj, hv]

/-- A block is put into the cache. -/
theorem insert_step (hs : Sound S) (h : RInv S tr) {i : Fin c} {k : After (W i)} (hc : (S.cols i).client = .store k)
    (hfree : ¬ ((P i).maxCache ≤ (S.cols i).cache.length ∨ (S.cols i).cache.has (S.cols i).current = true))
    {s : State (W i) K (P i).threads} (e0 : S'.cols = Function.update S.cols i s)
    (e1 : s.cache = (S.cols i).cache.insert (S.cols i).current (S.cols i).buffer)
    (e2 : s.stores = (S.cols i).stores ++ [((S.cols i).current, (S.cols i).buffer)])
    (e3 : s.threads = fun t => ((S.cols i).threads t).wake) (hb : ∀ i, begun S i ↔ begun S' i)
    (he : early S' → early S) : RInv S' (tr ++ by_ none (callActs i (S.view i))) := by
  have hp := store_ok i hc
  have hself : S'.cols i = s := by rw [e0, Function.update_self]
  have hother : ∀ j, j ≠ i → S'.cols j = S.cols j := fun j hj => by rw [e0, Function.update_of_ne hj]
  have hrel : Act.release (some i) ∈ callActs i (S.view i) := by
    have hv : (S.view i).client = .store k := hc
    unfold callActs
    rw [hv]
    simp only
    split <;> simp
  have hfl : Flushed (some i) (.obj i (S.cols i).stores.length) (callActs i (S.view i)) := by
    have hv : (S.view i).client = .store k := hc
    have hv2 : (S.view i).stores = (S.cols i).stores := rfl
    unfold callActs
    rw [hv]
    simp only
    split <;> simp [Flushed, curObj, hv2]
  have hhas : (S.cols i).cache.has (S.cols i).current = false := by
    rw [Bool.eq_false_iff]
    exact fun h1 => hfree (.inr h1)
  have hthreads : ∀ j u b, ((S'.cols j).threads u).on b → ((S.cols j).threads u).on b := by
    intro j u b hu
    by_cases hj : j = i
    · subst hj; rw [hself, e3] at hu; exact wake_on.mp hu
    · rwa [hother j hj] at hu
  refine ⟨free_step h no_worker hp fun _ => False.elim, base_step h hs extra_none hp no_worker (fun i => (hb i).mp) he ?_,
    fun j => col_keep (h.col j) hp (fun _ _ => id) id id (hb j).mpr, ?_, ?_⟩
  · intro j
    by_cases hj : j = i
    · subst hj; rw [hself, e2]; simp
    · rw [hother j hj]
  · obtain ⟨n, h1, h2, h3⟩ := h.man
    refine ⟨n, manOK_keep h1 hp fun _ _ => id, fun j u b x hx => ?_, fun j hj => ?_⟩
    · refine (h2 j u b x ?_).append h1.le
      by_cases hj : j = i
      · subst hj; rw [hself, e3] at hx; exact wake_eq_encode.mp hx
      · rwa [hother j hj] at hx
    · by_cases hji : j = i
      · subst hji
        exact Epoch.release h1.le hrel
      · rw [hother j hji] at hj
        exact (h3 j hj).append h1.le
  · have hidx : ∀ j b it, (b, it) ∈ (S.cols j).cache →
        lastIdx (S'.cols j).stores b = lastIdx (S.cols j).stores b := by
      intro j b it hm
      by_cases hj : j = i
      · subst hj
        rw [hself, e2, lastIdx_snoc, if_neg]
        rintro rfl
        exact (has_false _ _).mp hhas it hm
      · rw [hother j hj]
    have hobj : ∀ j b it, (b, it) ∈ (S.cols j).cache → ∀ (q : Nat) (a : MEv P),
        (tr ++ by_ none (callActs i (S.view i)))[q]? = some a →
        Uses a (.obj j (lastIdx (S.cols j).stores b)) → tr[q]? = some a := fun j b it hm q a hq hu =>
      obj_old hs h extra_none hp (h.blocks.stored j b it hm) (fun _ h1 => by cases h1) hq hu
    refine ⟨fun j b it hm => ?_, fun j u b hu q a hq hx => ?_, fun j b it hm hwr q a hq hx => ?_⟩
    · by_cases hj : j = i
      · subst hj
        rw [hself, e1] at hm
        rw [hself, e2]
        rcases (mem_insert _ _ _ _).mp hm with h1 | h1
        · refine ⟨((S.cols j).current, (S.cols j).buffer), by simp, ?_⟩
          injection h1 with h1 _
          exact h1.symm
        · obtain ⟨x, hx, h2⟩ := h.blocks.stored j b it h1
          exact ⟨x, List.mem_append_left _ hx, h2⟩
      · rw [hother j hj] at hm ⊢
        exact h.blocks.stored j b it hm
    · have hu' := hthreads j u b hu
      obtain ⟨y, hy⟩ := hs.on_mem hu'
      rw [hidx j b _ hy] at hx
      exact (h.blocks.enc j u b hu' q a (hobj j b _ hy q a hq hx) hx).mono
    · have hold : (b, it) ∈ (S.cols j).cache → Know (tr ++ by_ none (callActs i (S.view i))) (.mutex (some j)) q := by
        intro hm'
        rw [hidx j b _ hm'] at hx
        exact (h.blocks.pend j b it hm' hwr q a (hobj j b _ hm' q a hq hx) hx).mono
      by_cases hj : j = i
      · subst hj
        rw [hself, e1] at hm
        rcases (mem_insert _ _ _ _).mp hm with h1 | h1
        · injection h1 with h1 _
          subst h1
          rw [hself, e2, lastIdx_snoc, if_pos rfl] at hx
          rcases flushed_know hfl hq hx with h2 | h2
          · exact know_release_mem (.self h2 (h.base.cur q a j _ h2 hx le_rfl)) hrel
          · exact h2
        · exact hold h1
      · rw [hother j hj] at hm
        exact hold hm

theorem access_quiet {V : Type} {n : Nat} (s : State V K n) (k : Next V) : QuietCol s (s.access k) := by
  unfold State.access
  split
  · split <;> exact .refl rfl rfl rfl
  · cases k <;> exact .refl rfl rfl rfl

theorem quiet_view {i : Fin c} {s : State (W i) K (P i).threads} (h : QuietCol (S.view i) s) : QuietCol (S.cols i) s :=
  ⟨h.cache, h.stores, h.encode, h.on⟩

/-- A step of the client in a call of column `i`. -/
theorem call_step (hs : Sound S) (h : RInv S tr) {i : Fin c}
    (hc : working (S.cols i).client = true ∨ stopping (S.cols i).client = true) {junk : Nat → W i}
    {s : State (W i) K (P i).threads} (e : clientStep (P i) (S.view i) junk = some s)
    (e0 : S'.cols = Function.update S.cols i s) (hb : ∀ i, begun S i ↔ begun S' i) (he : early S' → early S) :
    RInv S' (tr ++ by_ none (callActs i (S.view i))) := by
  have hquiet : Ok S none (fun _ => False) (callActs i (S.view i)) → QuietCol (S.view i) s →
      RInv S' (tr ++ by_ none (callActs i (S.view i))) :=
    fun h1 h2 => quiet_step hs h no_worker h1 (quiet_of (quiet_view h2) e0) hb he
  have hv : (S.view i).client = (S.cols i).client := rfl
  have hv2 : (S.view i).stores = (S.cols i).stores := rfl
  unfold clientStep at e
  match hpc : (S.cols i).client with
  | .store k =>
    rw [hv, hpc] at e
    injection e with e
    unfold State.storeBlock at e
    by_cases h1 : (S.view i).current = noBlock
    · rw [if_pos h1] at e
      subst e
      exact hquiet (store_ok i hpc) (.refl rfl rfl rfl)
    · rw [if_neg h1] at e
      by_cases h2 : (P i).maxCache ≤ (S.view i).cache.length ∨ (S.view i).cache.has (S.view i).current = true
      · rw [if_pos h2] at e
        subst e
        exact hquiet (store_ok i hpc) (.refl rfl rfl rfl)
      · rw [if_neg h2] at e
        subst e
        exact insert_step hs h hpc h2 e0 rfl rfl rfl hb he
  | .getLock row =>
    rw [hv, hpc] at e
    simp only at e
    have hok : Ok S none (fun _ => False) (callActs i (S.view i)) := by
      unfold callActs
      rw [hv, hpc]
      refine prog_append (by simp [Prog, mayHold]) ?_
      split
      · rfl
      · exact access_ok i _
    split at e
    · injection e with e; subst e; exact hquiet hok (.refl rfl rfl rfl)
    · injection e with e; subst e; exact hquiet hok (access_quiet _ _)
  | .load k =>
    rw [hv, hpc] at e
    injection e with e
    have hok : Ok S none (fun _ => False) (callActs i (S.view i)) := by
      unfold callActs
      rw [hv, hpc]
      exact prog_append (by simp [Prog, mayUse, mayRead, mayHold, curObj, hv2]) (finish_ok i)
    subst e
    refine hquiet hok ?_
    cases k <;> exact .refl rfl rfl rfl
  | .stopLock =>
    rw [hv, hpc] at e
    simp only at e
    have hok : Ok S none (fun _ => False) (callActs i (S.view i)) := by
      unfold callActs
      rw [hv, hpc]
      simp [Prog, mayUse, mayHold]
    split at e
    · split at e <;> injection e with e <;> subst e <;> exact hquiet hok (.refl rfl rfl rfl)
    · split at e
      · injection e with e; subst e; exact hquiet hok (.refl rfl rfl rfl)
      · injection e with e; subst e; exact hquiet hok (.wake rfl rfl rfl)
  | .join =>
    rw [hv, hpc] at e
    simp only at e
    have hok : Ok S none (fun _ => False) (callActs i (S.view i)) := by
      unfold callActs
      rw [hv, hpc]
      refine prog_append ?_ (by simp [Prog, mayUse])
      have := join_ok (S := S) (w := none) (X := fun _ => False)
        ((List.finRange (P i).threads).map fun t => (some ⟨i, t⟩ : Thr P))
      rwa [List.map_map] at this
    split at e
    · injection e with e; subst e; exact hquiet hok (.refl rfl rfl rfl)
    · cases e
  | .storeWait _ | .getWait _ | .stopWait => rw [hv, hpc] at e; cases e
  | .idle | .closed | .failed | .unsupported | .prepStart | .prepLock | .prepWait | .prepJoin =>
    rw [hpc] at hc
    rcases hc with hc | hc <;> cases hc

/-! ## The other steps of the client -/

theorem put_quiet {V : Type} {n : Nat} {p : Params V K} {s : State V K n} {row : Nat} {v : V}
    (h : startsBlocks p s row = false) : QuietCol s (State.put p s row v) := by
  unfold State.put
  split
  · exact access_quiet _ _
  · rename_i h1
    split
    · exact .refl rfl rfl rfl
    · rename_i h2
      split
      · rename_i h3
        split
        · exact .refl rfl rfl rfl
        · rename_i h4
          exfalso
          unfold startsBlocks at h
          rw [not_not] at h1
          simp [h1, h2, h3, h4] at h
      · exact .refl rfl rfl rfl

theorem get_quiet {V : Type} {n : Nat} (s : State V K n) (row : Nat) : QuietCol s (State.get s row) := by
  unfold State.get
  split
  · exact .refl rfl rfl rfl
  · split <;> exact .refl rfl rfl rfl

theorem enter_uninit (i : Fin c) (s : State (W i) K (P i).threads) (j : Fin c) : uninit (S.enter i s) j = false := by
  unfold uninit MState.enter
  simp only
  split
  · rename_i h1
    split at h1 <;> cases h1
  · rfl

theorem enter_early (i : Fin c) (s : State (W i) K (P i).threads) (h : early (S.enter i s)) : S.rowsPerBlock = 0 := by
  rcases h with h | ⟨_, _, _, _, h⟩ | ⟨_, _, _, h⟩
  · exact h
  · unfold MState.enter at h
    simp only at h
    split at h <;> cases h
  · unfold MState.enter at h
    simp only at h
    split at h <;> cases h

theorem uninit_of {pc : MPC W} (h : S.pc = pc) (h1 : ∀ i row v m, pc ≠ .init i row v m) (j : Fin c) :
    uninit S j = false := by
  unfold uninit
  split
  · rename_i h2
    exact (h1 _ _ _ _ (h.symm.trans h2)).elim
  · rfl

theorem early_of {pc : MPC W} (h : S.pc = pc) (h1 : ∀ i row v m, pc ≠ .init i row v m)
    (h2 : ∀ i row v, pc ≠ .header i row v) (he : early S) : S.rowsPerBlock = 0 := by
  rcases he with he | ⟨_, _, _, _, he⟩ | ⟨_, _, _, he⟩
  · exact he
  · exact (h1 _ _ _ _ (h.symm.trans he)).elim
  · exact (h2 _ _ _ (h.symm.trans he)).elim

/-- The rows per block become known. -/
theorem starts_step (hs : Sound S) (h : RInv S tr) (hpc : S.pc = .idle) {i : Fin c} {row : Nat} {v : W i}
    (hst : startsBlocks (P i) (S.view i) row = true) (rest : List (MOp W)) :
    RInv ({ S with todo := rest, rowsPerBlock := row, pc := .init i row v 0 } : MState P)
      (tr ++ by_ none [.read .rows, .read (.mine i), .read (curObj i (S.view i)), .write .rows, .write .layout]) := by
  have hr : S.rowsPerBlock = 0 := by
    unfold startsBlocks at hst
    simp only [Bool.and_eq_true, beq_iff_eq] at hst
    exact hst.1.1.1
  have hnb : ∀ j, ¬ begun S j := by
    intro j hj
    exact hj (by rw [hr]; split <;> rfl)
  have hall : ∀ (j : Nat) (a : MEv P), tr[j]? = some a → a.who = none := by
    intro j a hj
    by_contra h1
    obtain ⟨⟨k, t⟩, h2⟩ := Option.ne_none_iff_exists'.mp h1
    exact hnb k (h.base.who j a k t hj h2)
  have hes : early S := .inl hr
  have hcl : ∀ j, (S.cols j).client = .idle := by
    have := hs.place
    unfold Place at this
    rwa [hpc] at this
  have hp : Ok S none (fun l => l = .rows ∨ l = .layout)
      [.read .rows, .read (.mine i), .read (curObj i (S.view i)), .write .rows, .write .layout] := by
    have hv : (S.view i).stores = (S.cols i).stores := rfl
    simp [Prog, mayUse, curObj, hv]
  have hx : Extra (none : Thr P) fun l : Var c => l = .rows ∨ l = .layout := ⟨fun _ _ => rfl, by simp, by simp⟩
  refine ⟨free_step h no_worker hp fun l _ j a hj _ => .self hj (hall j a hj),
    base_step h hs hx hp no_worker (fun j hj => (hnb j hj).elim) (fun _ => hes) fun _ => le_rfl, fun j => ?_,
    man_float h.man (fun j t b x hx => hs.early_on hes j t b (.inl ⟨x, hx⟩)) (hs.early_cache hes fun _ => hcl),
    blocks_keep hs h hx hp (quiet_refl rfl)⟩
  obtain ⟨n, h1, _⟩ := h.col j
  exact ⟨_, colOK_float h1, fun h2 => (h2 (by simp [uninit])).elim⟩

/-- One column is initialised. -/
theorem init_step (hs : Sound S) (h : RInv S tr) {i : Fin c} {row : Nat} {v : W i} {k : Nat}
    (hpc : S.pc = .init i row v k) (hk : k < c) :
    RInv ({ S.set ⟨k, hk⟩ (S.view ⟨k, hk⟩).start with pc := .init i row v (k + 1) } : MState P)
      (tr ++ by_ none (initActs P ⟨k, hk⟩ ++ createActs P ⟨k, hk⟩)) := by
  have hes : early S := .inr (.inl ⟨i, row, v, k, hpc⟩)
  have hpl := hs.place
  unfold Place at hpl
  rw [hpc] at hpl
  obtain ⟨hp1, hp2, hp3⟩ := hpl
  have hun : ∀ j : Fin c, uninit S j = decide (k ≤ j) := by
    intro j
    unfold uninit
    rw [hpc]
  have hnk : ¬ begun S ⟨k, hk⟩ := by
    intro h1
    refine h1 ?_
    rw [hun]
    simp
  generalize hS' : ({ S.set ⟨k, hk⟩ (S.view ⟨k, hk⟩).start with pc := .init i row v (k + 1) } : MState P) = S'
  have hcols : S'.cols = Function.update S.cols ⟨k, hk⟩ (S.view ⟨k, hk⟩).start := by rw [← hS']; rfl
  have hrows : S'.rowsPerBlock = S.rowsPerBlock := by rw [← hS']; rfl
  have hun' : ∀ j : Fin c, uninit S' j = decide (k + 1 ≤ j) := by
    intro j
    rw [← hS']
    rfl
  have hbeg : ∀ j : Fin c, j ≠ ⟨k, hk⟩ → (begun S' j ↔ begun S j) := by
    intro j hj
    unfold begun
    rw [hun, hun', hrows]
    have : j.val ≠ k := fun h1 => hj (Fin.ext h1)
    have : (k + 1 ≤ j.val) ↔ (k ≤ j.val) := by omega
    rw [decide_eq_decide.mpr this]
  have hq : Quiet S S' := by
    refine quiet_of (i := ⟨k, hk⟩) (s := (S.view ⟨k, hk⟩).start) ⟨fun _ => id, rfl, fun t b x hx => ?_, fun t b hx => ?_⟩ hcols
    · cases (show ThreadPC.head = .encode b x from hx)
    · rcases hx with ⟨x, hx⟩ | hx
      · cases (show ThreadPC.head = .encode b x from hx)
      · cases (show ThreadPC.head = .written b from hx)
  let X : Var c → Prop := fun l => l = .layout ∨ l = .config ⟨k, hk⟩ ∨ l = .stop ⟨k, hk⟩
  have hx : Extra (none : Thr P) X := ⟨fun _ _ => rfl, by simp [X], by simp [X]⟩
  have hpi : Ok S none X (initActs P ⟨k, hk⟩) := by
    simp [initActs, Prog, mayUse, mayRead, mayHold, X]
  have hpc' : ∀ Y, Ok S none Y (createActs P ⟨k, hk⟩) := by
    intro Y
    have := create_ok (S := S) (w := none) (X := Y)
      ((List.finRange (P ⟨k, hk⟩).threads).map fun t => (some ⟨⟨k, hk⟩, t⟩ : Thr P))
    rwa [List.map_map] at this
  have hp : Ok S none X (initActs P ⟨k, hk⟩ ++ createActs P ⟨k, hk⟩) := prog_append hpi (hpc' X)
  have hready : ∀ l, X l → Ready tr none l := by
    intro l hl j a hj hu
    refine .self hj ?_
    rcases hl with rfl | hl
    · exact h.base.early hes j a _ hj hu (.inr (.inr rfl))
    · have hg : guarded ⟨k, hk⟩ l ∨ l = .config ⟨k, hk⟩ := by
        rcases hl with rfl | rfl
        · exact .inr rfl
        · exact .inl (.inr (.inl rfl))
      rcases h.base.own j a ⟨k, hk⟩ l hj hu hg with h1 | ⟨t, h1⟩
      · exact h1
      · exact (hnk (h.base.who j a _ t hj h1)).elim
  refine ⟨free_step h no_worker hp hready, base_step h hs hx hp no_worker (fun j hj => ?_) (fun _ => hes)
    (fun j => by rw [hq.stores]), fun j => ?_, man_float h.man
      (fun j t b x hx => hs.early_on hes j t b (.inl ⟨x, hq.encode j t b x hx⟩)) (fun j => ?_), blocks_keep hs h hx hp hq⟩
  · refine (hbeg j ?_).mpr hj
    rintro rfl
    exact hnk hj
  · by_cases hj : j = ⟨k, hk⟩
    · subst hj
      obtain ⟨n, h1, _⟩ := h.col ⟨k, hk⟩
      rw [by_, List.map_append, ← List.append_assoc]
      refine ⟨_, colOK_keep (colOK_float h1) (hpc' fun _ => False) (fun _ _ => id) id id, fun _ t => ?_⟩
      refine Epoch.create le_rfl ?_
      simp [createActs]
    · refine col_keep (h.col j) hp ?_ (by simp [X]) ?_ (hbeg j hj).mp
      · rintro l (rfl | rfl | rfl) <;> simp [X, hj]
      · simp [X, hj]
  · refine List.eq_nil_iff_forall_not_mem.mpr fun x hx => ?_
    have := hq.cache j x hx
    rw [(hp3 j).2] at this
    cases this

/-- The header is written, and the put goes on. -/
theorem header_step (hs : Sound S) (h : RInv S tr) {i : Fin c} {row : Nat} {v : W i} (hpc : S.pc = .header i row v) :
    RInv (S.enter i (State.put (P i) (S.view i) row v))
      (tr ++ by_ none (headerActs P ++ putActs P i (S.view i) row v)) := by
  have hes : early S := .inr (.inr ⟨i, row, v, hpc⟩)
  have hpl := hs.place
  unfold Place at hpl
  rw [hpc] at hpl
  obtain ⟨hp1, hp2, hp3⟩ := hpl
  have hsb : startsBlocks (P i) (S.view i) row = false := by
    unfold startsBlocks
    have : (S.view i).rowsPerBlock = row := hp1
    rw [this]
    simp [hp2]
  have hq : Quiet S (S.enter i (State.put (P i) (S.view i) row v)) := quiet_of (quiet_view (put_quiet hsb)) rfl
  have hb := begun_same (S := S) (S' := S.enter i (State.put (P i) (S.view i) row v))
    (fun j => by rw [enter_uninit, uninit_of hpc (by simp)]) rfl
  let X : Var c → Prop := fun l => l = .layout ∨ l = .stream
  have hx : Extra (none : Thr P) X := ⟨fun _ _ => rfl, by simp [X], by simp [X]⟩
  have hcfg : ∀ l : List (Fin c), Ok S none X (l.map fun i => (.read (.config i) : MAct P)) := by
    intro l
    induction l with
    | nil => rfl
    | cons a l ih => exact ⟨.inr (.inl (.inl rfl)), ih⟩
  have hweak : ∀ (g : Option (Mut c)) (r : List (MAct P)),
      Prog (fun l => mayUse S none l ∨ False) (mayRead S none) (mayHold S none) g r →
      Prog (fun l => mayUse S none l ∨ X l) (mayRead S none) (mayHold S none) g r := by
    intro g r hr
    induction r generalizing g with
    | nil => exact hr
    | cons a r ih =>
      cases a with
      | acquire m => exact ⟨hr.1, ih _ hr.2⟩
      | release m => exact ⟨hr.1, ih _ hr.2⟩
      | read l => exact ⟨hr.1.imp (.imp id False.elim) id, ih _ hr.2⟩
      | write l => exact ⟨hr.1.imp (.imp id False.elim) id, ih _ hr.2⟩
      | create t => exact ih _ hr
      | join t => exact ih _ hr
  have hp : Ok S none X (headerActs P ++ putActs P i (S.view i) row v) := by
    refine prog_append (prog_append ?_ (hcfg _)) (hweak _ _ (put_ok i row v))
    simp [Prog, mayRead, X]
  refine ⟨free_step h no_worker hp ?_, base_step h hs hx hp no_worker (fun j => (hb j).mp) (fun _ => hes)
    (fun j => by rw [hq.stores]), fun j => col_keep (h.col j) hp ?_ (by simp [X]) (by simp [X]) (hb j).mpr,
    man_float h.man (fun j t b x hx => hs.early_on hes j t b (.inl ⟨x, hq.encode j t b x hx⟩)) (fun j => ?_),
    blocks_keep hs h hx hp hq⟩
  · intro l hl j a hj hu
    refine .self hj (h.base.early hes j a l hj hu ?_)
    rcases hl with rfl | rfl
    · exact .inr (.inr rfl)
    · exact .inr (.inl rfl)
  · rintro l (rfl | rfl | rfl) <;> simp [X]
  · refine List.eq_nil_iff_forall_not_mem.mpr fun x hx => ?_
    have := hq.cache j x hx
    rw [(hp3 j).2] at this
    cases this

theorem client_step (hs : Sound S) (h : RInv S tr) {junk : (i : Fin c) → Nat → W i}
    (e : mstep S (.client junk) = some S') : RInv S' (tr ++ events S (.client junk)) := by
  show RInv S' (tr ++ by_ none S.clientActs)
  change S.client junk = some S' at e
  unfold MState.client at e
  unfold MState.clientActs
  have hpl := hs.place
  unfold Place at hpl
  have hnil : Ok S none (fun _ => False) [] := rfl
  cases hpc : S.pc with
  | idle =>
    have hu := uninit_of hpc (by simp)
    rw [hpc] at hpl
    simp only [hpc] at e ⊢
    cases ht : S.todo with
    | nil => rw [ht] at e; cases e
    | cons op rest =>
      cases op with
      | put i row v =>
        simp only [ht] at e ⊢
        by_cases hst : startsBlocks (P i) (S.view i) row = true
        · rw [if_pos hst] at e
          injection e with e
          subst e
          rw [if_pos hst]
          exact starts_step hs h hpc hst rest
        · rw [if_neg hst] at e
          injection e with e
          subst e
          rw [if_neg hst]
          refine quiet_step hs h no_worker (put_ok i row v)
            (quiet_of (quiet_view (put_quiet (by simpa using hst))) rfl) (begun_same ?_ rfl) fun h1 => .inl (enter_early _ _ h1)
          intro j
          rw [hu, enter_uninit]
      | get i row =>
        simp only [ht] at e ⊢
        injection e with e
        subst e
        refine quiet_step hs h no_worker (get_ok i)
          (quiet_of (quiet_view (get_quiet _ row)) rfl) (begun_same ?_ rfl) fun h1 => .inl (enter_early _ _ h1)
        intro j
        rw [hu, enter_uninit]
      | close =>
        simp only [ht] at e ⊢
        injection e with e
        subst e
        refine quiet_step hs h no_worker hnil (quiet_refl rfl) (begun_same ?_ rfl)
          fun h1 => .inl (early_of (S := ({ S with todo := rest, pc := .close 0 } : MState P)) rfl (by simp) (by simp) h1)
        intro j
        rw [hu]
        rfl
  | call i =>
    have hu := uninit_of hpc (by simp)
    rw [hpc] at hpl
    simp only [hpc] at e ⊢
    rw [Option.map_eq_some_iff] at e
    obtain ⟨s, e, rfl⟩ := e
    refine call_step hs h (.inl hpl.2) e rfl (begun_same ?_ rfl) fun h1 => .inl (enter_early _ _ h1)
    intro j
    rw [hu, enter_uninit]
  | closing i =>
    have hu := uninit_of hpc (by simp)
    rw [hpc] at hpl
    simp only [hpc] at e ⊢
    rw [Option.map_eq_some_iff] at e
    obtain ⟨s, e, rfl⟩ := e
    refine call_step hs h (.inr hpl.1) e rfl (begun_same ?_ rfl) fun h1 => .inl ?_
    · intro j
      rw [hu]
      symm
      unfold uninit
      simp only
      split
      · rename_i h1
        split at h1 <;> cases h1
      · rfl
    · rcases h1 with h1 | ⟨_, _, _, _, h1⟩ | ⟨_, _, _, h1⟩
      · exact h1
      · simp only at h1
        split at h1 <;> cases h1
      · simp only at h1
        split at h1 <;> cases h1
  | init i row v k =>
    have hes : early S := .inr (.inl ⟨i, row, v, k, hpc⟩)
    rw [hpc] at hpl
    simp only [hpc] at e ⊢
    by_cases hk : k < c
    · rw [dif_pos hk] at e ⊢
      have hcache : (S.cols ⟨k, hk⟩).cache = [] := (hpl.2.2 _).2
      have hcache' : ¬ (S.cols ⟨k, hk⟩).cache ≠ [] := not_not.mpr hcache
      rw [if_neg hcache'] at e ⊢
      injection e with e
      subst e
      exact init_step hs h hpc hk
    · rw [dif_neg hk] at e ⊢
      injection e with e
      subst e
      refine quiet_step hs h no_worker hnil (quiet_refl rfl) (begun_same ?_ rfl) fun _ => hes
      intro j
      have := j.isLt
      unfold uninit
      rw [hpc]
      simp only [decide_eq_false_iff_not]
      omega
  | header i row v =>
    simp only [hpc] at e ⊢
    injection e with e
    subst e
    exact header_step hs h hpc
  | close k =>
    have hu := uninit_of hpc (by simp)
    simp only [hpc] at e ⊢
    by_cases hk : k < c
    · rw [dif_pos hk] at e ⊢
      injection e with e
      subst e
      refine quiet_step hs h no_worker ?_ (quiet_of (i := ⟨k, hk⟩)
        (s := State.call (P ⟨k, hk⟩) (S.view ⟨k, hk⟩) .close) (quiet_view ?_) rfl) (begun_same ?_ rfl)
        fun h1 => .inl (early_of (S := ({ S.set ⟨k, hk⟩ (State.call (P ⟨k, hk⟩) (S.view ⟨k, hk⟩) .close) with
          pc := .closing ⟨k, hk⟩ } : MState P)) rfl (by simp) (by simp) h1)
      · simp [Prog, mayUse]
      · unfold State.call
        simp only
        split <;> exact .refl rfl rfl rfl
      · intro j
        rw [hu]
        rfl
    · rw [dif_neg hk] at e ⊢
      injection e with e
      subst e
      refine quiet_step hs h no_worker hnil (quiet_refl rfl) (begun_same ?_ rfl)
        fun h1 => .inl (early_of (S := ({ S with pc := .closed } : MState P)) rfl (by simp) (by simp) h1)
      intro j
      rw [hu]
      rfl
  | closed => simp only [hpc] at e; cases e
  | failed => simp only [hpc] at e; cases e
  | unsupported => simp only [hpc] at e; cases e

theorem race_step (hs : Sound S) (h : RInv S tr) {l : MLabel P} (e : mstep S l = some S') :
    RInv S' (tr ++ events S l) := by
  cases l with
  | client junk => exact client_step hs h e
  | thread i t => exact thread_step hs h e
  | spuriousThread i t =>
    simp only [mstep, step, Option.map_some] at e
    injection e with e
    subst e
    refine quiet_step (w := none) (r := []) hs h no_worker rfl (quiet_of (i := i) (s := { S.view i with
      threads := Function.update (S.view i).threads t ((S.view i).threads t).wake }) (quiet_view ⟨fun _ => id, rfl, ?_, ?_⟩) rfl)
      (fun _ => Iff.rfl) id
    · intro u b x hx
      simp only at hx
      by_cases hu : u = t
      · subst hu; rw [Function.update_self] at hx; exact wake_eq_encode.mp hx
      · rwa [Function.update_of_ne hu] at hx
    · intro u b hx
      simp only at hx
      by_cases hu : u = t
      · subst hu; rw [Function.update_self] at hx; exact wake_on.mp hx
      · rwa [Function.update_of_ne hu] at hx
  | spuriousClient i =>
    simp only [mstep, step, Option.map_some] at e
    injection e with e
    subst e
    exact quiet_step (w := none) (r := []) hs h no_worker rfl (quiet_of (i := i) (s := { S.view i with
      client := (S.view i).client.wake }) (quiet_view (.refl rfl rfl rfl)) rfl)
      (fun _ => Iff.rfl) id

end Dysco.Multi
