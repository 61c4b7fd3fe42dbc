import Verif.RaceModel

/-! # Happens before along a growing trace -/

namespace Dysco.Race
variable {T M L : Type} {tr es : List (Ev T M L)} {e : Ev T M L}

theorem get_append {i : Nat} {a : Ev T M L} (h : tr[i]? = some a) : (tr ++ es)[i]? = some a := by
  rw [List.getElem?_append_left (List.getElem?_eq_some_iff.mp h).1, h]

theorem get_lt {i : Nat} {a : Ev T M L} (h : tr[i]? = some a) : i < tr.length := (List.getElem?_eq_some_iff.mp h).1

theorem get_last : (tr ++ [e])[tr.length]? = some e := by simp

theorem get_snoc {i : Nat} {a : Ev T M L} (h : (tr ++ [e])[i]? = some a) :
    tr[i]? = some a ∨ (i = tr.length ∧ a = e) := by
  by_cases hi : i < tr.length
  · left; rwa [List.getElem?_append_left hi] at h
  · right
    have := get_lt h
    simp at this
    obtain rfl : i = tr.length := by omega
    rw [get_last] at h
    injection h with h
    exact ⟨rfl, h.symm⟩

/-- An event of the appended part. -/
theorem get_split {i : Nat} {a : Ev T M L} (h : (tr ++ es)[i]? = some a) :
    tr[i]? = some a ∨ ∃ pre post, es = pre ++ a :: post ∧ i = tr.length + pre.length := by
  by_cases hi : i < tr.length
  · left; rwa [List.getElem?_append_left hi] at h
  · right
    rw [List.getElem?_append_right (by omega)] at h
    obtain ⟨h1, h2⟩ := List.getElem?_eq_some_iff.mp h
    refine ⟨es.take (i - tr.length), es.drop (i - tr.length + 1), ?_, ?_⟩
    · rw [← h2, List.getElem_cons_drop, List.take_append_drop]
    · rw [List.length_take]; omega

theorem HB.mono {i j : Nat} (h : HB tr i j) : HB (tr ++ es) i j := by
  induction h with
  | edge h1 h2 h3 h4 => exact .edge h1 (get_append h2) (get_append h3) h4
  | trans _ _ ih1 ih2 => exact .trans ih1 ih2

theorem HB.lt {i j : Nat} (h : HB tr i j) : i < j := by
  induction h with
  | edge h1 _ _ _ => exact h1
  | trans _ _ ih1 ih2 => omega

/-- A thread, or the state of a mutex. -/
inductive Who (T M : Type) where
  | thread (t : T)
  | mutex (m : M)

/-- What makes an event visible: to a thread, its own events and its creation; to a mutex, its releases. -/
def Shows (x : Who T M) (a : Ev T M L) : Prop :=
  match x with
  | .thread t => a.who = t ∨ a.act = .create t
  | .mutex m => a.act = .release m

/-- Event `j` happens before everything that `x` does next. -/
def Know (tr : List (Ev T M L)) (x : Who T M) (j : Nat) : Prop :=
  ∃ i a, tr[i]? = some a ∧ Shows x a ∧ (i = j ∨ HB tr j i)

theorem Know.mono {x : Who T M} {j : Nat} (h : Know tr x j) : Know (tr ++ es) x j := by
  obtain ⟨i, a, h1, h2, h3⟩ := h
  exact ⟨i, a, get_append h1, h2, h3.imp id HB.mono⟩

theorem Know.self {t : T} {j : Nat} {a : Ev T M L} (h : tr[j]? = some a) (hw : a.who = t) : Know tr (.thread t) j :=
  ⟨j, a, h, .inl hw, .inl rfl⟩

theorem Know.before {t : T} {j : Nat} (h : Know tr (.thread t) j) (hw : e.who = t) : HB (tr ++ [e]) j tr.length := by
  obtain ⟨i, a, h1, h2, h3⟩ := h
  have h4 : HB (tr ++ [e]) i tr.length := by
    refine .edge (get_lt h1) (get_append h1) get_last ?_
    rcases h2 with h2 | h2
    · exact .inl (by rw [h2, hw])
    · exact .inr (.inr (.inl (by rw [h2, hw])))
  rcases h3 with rfl | h3
  · exact h4
  · exact .trans h3.mono h4

/-- What a thread knows becomes known to the mutex that it releases. -/
theorem Know.release {m : M} {j : Nat} (h : Know tr (.thread e.who) j) (he : e.act = .release m) :
    Know (tr ++ [e]) (.mutex m) j :=
  ⟨tr.length, e, get_last, he, .inr (h.before rfl)⟩

theorem Know.create {t : T} {j : Nat} (h : Know tr (.thread e.who) j) (he : e.act = .create t) :
    Know (tr ++ [e]) (.thread t) j :=
  ⟨tr.length, e, get_last, .inr he, .inr (h.before rfl)⟩

/-- What is known to a mutex becomes known to the thread that takes it. -/
theorem Know.acquire {m : M} {j : Nat} (h : Know tr (.mutex m) j) (he : e.act = .acquire m) :
    Know (tr ++ [e]) (.thread e.who) j := by
  obtain ⟨i, a, h1, h2, h3⟩ := h
  have h4 : HB (tr ++ [e]) i tr.length :=
    .edge (get_lt h1) (get_append h1) get_last (.inr (.inl ⟨m, h2, he⟩))
  refine ⟨tr.length, e, get_last, .inl rfl, .inr ?_⟩
  rcases h3 with rfl | h3
  · exact h4
  · exact .trans h3.mono h4

theorem raceFree_snoc (h : RaceFree tr)
    (he : ∀ j a, tr[j]? = some a → Conflict a e → Know tr (.thread e.who) j) : RaceFree (tr ++ [e]) := by
  intro i j a b hij hi hj hc
  rcases get_snoc hj with hj | ⟨rfl, rfl⟩
  · have hi' : tr[i]? = some a := by
      rcases get_snoc hi with hi | ⟨rfl, _⟩
      · exact hi
      · have := get_lt hj; omega
    exact (h i j a b hij hi' hj hc).mono
  · have hi' : tr[i]? = some a := by
      rcases get_snoc hi with hi | ⟨rfl, _⟩
      · exact hi
      · omega
    exact (he i a hi' hc).before rfl

/-- All uses of the variable are known to the thread. -/
def Ready (tr : List (Ev T M L)) (t : T) (l : L) : Prop := ∀ j a, tr[j]? = some a → Uses a l → Know tr (.thread t) j

/-- All writes of the variable are known to the thread. -/
def ReadyR (tr : List (Ev T M L)) (t : T) (l : L) : Prop :=
  ∀ j a, tr[j]? = some a → a.act = .write l → Know tr (.thread t) j

/-- All uses of the variable will be known to the thread when it has the mutex. -/
def Guard (tr : List (Ev T M L)) (t : T) (m : M) (l : L) : Prop :=
  ∀ j a, tr[j]? = some a → Uses a l → Know tr (.mutex m) j ∨ Know tr (.thread t) j

theorem Ready.snoc {t : T} {l : L} (h : Ready tr t l) (he : e.who = t) : Ready (tr ++ [e]) t l := by
  intro j a hj hu
  rcases get_snoc hj with h1 | ⟨rfl, rfl⟩
  · exact (h j a h1 hu).mono
  · exact .self hj he

theorem ReadyR.snoc {t : T} {l : L} (h : ReadyR tr t l) (he : e.who = t) : ReadyR (tr ++ [e]) t l := by
  intro j a hj hu
  rcases get_snoc hj with h1 | ⟨rfl, rfl⟩
  · exact (h j a h1 hu).mono
  · exact .self hj he

theorem Guard.snoc {t : T} {m : M} {l : L} (h : Guard tr t m l) (he : e.who = t) : Guard (tr ++ [e]) t m l := by
  intro j a hj hu
  rcases get_snoc hj with h1 | ⟨rfl, rfl⟩
  · exact (h j a h1 hu).imp Know.mono Know.mono
  · exact .inr (.self hj he)

theorem Guard.acquire {t : T} {m : M} {l : L} (h : Guard tr t m l) (he : e.who = t) (ha : e.act = .acquire m) :
    Ready (tr ++ [e]) t l := by
  intro j a hj hu
  rcases get_snoc hj with h1 | ⟨rfl, rfl⟩
  · rcases h j a h1 hu with h2 | h2
    · exact he ▸ h2.acquire ha
    · exact h2.mono
  · exact .self hj he

/-- The accesses in a list of actions are allowed: `A` may be used, `B` may be read, and `G m` may be used after taking
`m`. -/
def Chk (B : L → Prop) (G : M → L → Prop) : (L → Prop) → List (Act T M L) → Prop
  | _, [] => True
  | A, .acquire m :: r => Chk B G (fun l => A l ∨ G m l) r
  | A, .read l :: r => (A l ∨ B l) ∧ Chk B G A r
  | A, .write l :: r => A l ∧ Chk B G A r
  | A, .release _ :: r => Chk B G A r
  | A, .create _ :: r => Chk B G A r
  | A, .join _ :: r => Chk B G A r

theorem chk_append {B : L → Prop} {G : M → L → Prop} {A : L → Prop} {r r' : List (Act T M L)} (h : Chk B G A r)
    (h' : ∀ A' : L → Prop, (∀ l, A l → A' l) → Chk B G A' r') : Chk B G A (r ++ r') := by
  induction r generalizing A with
  | nil => exact h' A fun _ => id
  | cons a r ih =>
    cases a with
    | acquire m => exact ih h fun A' hA => h' A' fun l hl => hA l (.inl hl)
    | release m => exact ih h h'
    | create m => exact ih h h'
    | join m => exact ih h h'
    | read l => exact ⟨h.1, ih h.2 h'⟩
    | write l => exact ⟨h.1, ih h.2 h'⟩

theorem chk_raceFree {B : L → Prop} {G : M → L → Prop} {A : L → Prop} {t : T} {r : List (Act T M L)} (h : Chk B G A r)
    (h0 : RaceFree tr) (hA : ∀ l, A l → Ready tr t l) (hB : ∀ l, B l → ReadyR tr t l)
    (hG : ∀ m l, G m l → Guard tr t m l) : RaceFree (tr ++ r.map fun a => (⟨t, a⟩ : Ev T M L)) := by
  induction r generalizing tr A with
  | nil => simpa using h0
  | cons a r ih =>
    rw [List.map_cons, List.append_cons]
    have hsync : (∀ l, a ≠ .read l) → (∀ l, a ≠ .write l) → RaceFree (tr ++ [⟨t, a⟩]) := by
      intro h1 h2
      refine raceFree_snoc h0 ?_
      rintro j b _ ⟨_, l, _, h3, _⟩
      rcases h3 with h3 | h3
      · exact (h1 l h3).elim
      · exact (h2 l h3).elim
    have hB' : ∀ l, B l → ReadyR (tr ++ [⟨t, a⟩]) t l := fun l hl => (hB l hl).snoc rfl
    have hG' : ∀ m l, G m l → Guard (tr ++ [⟨t, a⟩]) t m l := fun m l hl => (hG m l hl).snoc rfl
    have hA' : ∀ l, A l → Ready (tr ++ [⟨t, a⟩]) t l := fun l hl => (hA l hl).snoc rfl
    cases a with
    | acquire m =>
      refine ih h (hsync (by simp) (by simp)) ?_ hB' hG'
      rintro l (hl | hl)
      · exact hA' l hl
      · exact (hG m l hl).acquire rfl rfl
    | release m => exact ih h (hsync (by simp) (by simp)) hA' hB' hG'
    | create m => exact ih h (hsync (by simp) (by simp)) hA' hB' hG'
    | join m => exact ih h (hsync (by simp) (by simp)) hA' hB' hG'
    | read l =>
      refine ih h.2 (raceFree_snoc h0 ?_) hA' hB' hG'
      rintro j b hj ⟨_, l', h2, h3, h4⟩
      obtain rfl : l = l' := by
        rcases h3 with h3 | h3
        · injection h3
        · cases h3
      rcases h.1 with h1 | h1
      · exact hA l h1 j b hj h2
      · refine hB l h1 j b hj (h4.resolve_right ?_)
        intro h5; cases h5
    | write l =>
      refine ih h.2 (raceFree_snoc h0 ?_) hA' hB' hG'
      rintro j b hj ⟨_, l', h2, h3, h4⟩
      obtain rfl : l = l' := by
        rcases h3 with h3 | h3
        · cases h3
        · injection h3
      exact hA l h.1 j b hj h2

/-- Every use of the variable in the list is followed by releasing the mutex. -/
def Flushed (m : M) (l : L) : List (Act T M L) → Prop
  | [] => True
  | a :: r => ((a = .read l ∨ a = .write l) → Act.release m ∈ r) ∧ Flushed m l r

theorem flushed_of_not {m : M} {l : L} {r : List (Act T M L)} (h : ∀ a ∈ r, a ≠ .read l ∧ a ≠ .write l) :
    Flushed m l r := by
  induction r with
  | nil => trivial
  | cons a r ih =>
    refine ⟨fun h1 => ?_, ih fun b hb => h b (List.mem_cons_of_mem _ hb)⟩
    have := h a List.mem_cons_self
    rcases h1 with h1 | h1
    · exact (this.1 h1).elim
    · exact (this.2 h1).elim

theorem flushed_append {m : M} {l : L} {r r' : List (Act T M L)} (h : Flushed m l r) (h' : Flushed m l r') :
    Flushed m l (r ++ r') := by
  induction r with
  | nil => exact h'
  | cons a r ih => exact ⟨fun h1 => List.mem_append_left _ (h.1 h1), ih h.2⟩

/-- The actions of one thread. -/
abbrev by_ (t : T) (r : List (Act T M L)) : List (Ev T M L) := r.map fun a => ⟨t, a⟩

theorem know_release_mem {t : T} {m : M} {j : Nat} {r : List (Act T M L)} (h : Know tr (.thread t) j)
    (hr : Act.release m ∈ r) : Know (tr ++ by_ t r) (.mutex m) j := by
  induction r generalizing tr with
  | nil => cases hr
  | cons a r ih =>
    rw [by_, List.map_cons, List.append_cons]
    rcases List.mem_cons.mp hr with rfl | hr
    · exact Know.mono (Know.release (e := ⟨t, .release m⟩) h rfl)
    · exact ih h.mono hr

theorem know_acquire_mem {t : T} {m : M} {j : Nat} {r : List (Act T M L)} (h : Know tr (.mutex m) j)
    (hr : Act.acquire m ∈ r) : Know (tr ++ by_ t r) (.thread t) j := by
  induction r generalizing tr with
  | nil => cases hr
  | cons a r ih =>
    rw [by_, List.map_cons, List.append_cons]
    rcases List.mem_cons.mp hr with rfl | hr
    · exact Know.mono (Know.acquire (e := ⟨t, .acquire m⟩) h rfl)
    · exact ih h.mono hr

theorem know_create_mem {t u : T} {j : Nat} {r : List (Act T M L)} (h : Know tr (.thread t) j)
    (hr : Act.create u ∈ r) : Know (tr ++ by_ t r) (.thread u) j := by
  induction r generalizing tr with
  | nil => cases hr
  | cons a r ih =>
    rw [by_, List.map_cons, List.append_cons]
    rcases List.mem_cons.mp hr with rfl | hr
    · exact Know.mono (Know.create (e := ⟨t, .create u⟩) h rfl)
    · exact ih h.mono hr

/-- What is used in a list of actions is known to the mutex afterwards, if the uses are flushed. -/
theorem flushed_know {t : T} {m : M} {l : L} {r : List (Act T M L)} (h : Flushed m l r) {j : Nat} {a : Ev T M L}
    (hj : (tr ++ by_ t r)[j]? = some a) (hu : Uses a l) : tr[j]? = some a ∨ Know (tr ++ by_ t r) (.mutex m) j := by
  induction r generalizing tr with
  | nil => left; simpa using hj
  | cons b r ih =>
    rw [by_, List.map_cons, List.append_cons] at hj ⊢
    rcases ih h.2 hj with h1 | h1
    · rcases get_snoc h1 with h2 | ⟨rfl, rfl⟩
      · exact .inl h2
      · exact .inr (know_release_mem (.self h1 rfl) (h.1 hu))
    · exact .inr h1

/-- The actions use the variable nowhere. -/
def Unused (l : L) (r : List (Act T M L)) : Prop := ∀ a ∈ r, a ≠ .read l ∧ a ≠ .write l

theorem unused_get {t : T} {l : L} {r : List (Act T M L)} (h : Unused l r) {j : Nat} {a : Ev T M L}
    (hj : (tr ++ by_ t r)[j]? = some a) (hu : Uses a l) : tr[j]? = some a := by
  rcases get_split hj with h1 | ⟨pre, post, h1, _⟩
  · exact h1
  · have : a ∈ by_ t r := by rw [h1]; simp
    obtain ⟨b, hb, rfl⟩ := List.mem_map.mp this
    rcases hu with hu | hu
    · exact ((h b hb).1 hu).elim
    · exact ((h b hb).2 hu).elim

theorem by_who {t : T} {r : List (Act T M L)} {j : Nat} {a : Ev T M L}
    (hj : (tr ++ by_ t r)[j]? = some a) : tr[j]? = some a ∨ (a.who = t ∧ a.act ∈ r ∧ tr.length ≤ j) := by
  rcases get_split hj with h1 | ⟨pre, post, h1, h2⟩
  · exact .inl h1
  · right
    have : a ∈ by_ t r := by rw [h1]; simp
    obtain ⟨b, hb, rfl⟩ := List.mem_map.mp this
    exact ⟨rfl, hb, by omega⟩

/-! ## Variables that are protected after an initial phase in which only thread `o` uses them -/

/-- Used by `o` among the first `n` events, or else with the mutex. -/
def Held (tr : List (Ev T M L)) (o : T) (n : Nat) (m : M) (l : L) : Prop :=
  ∀ j a, tr[j]? = some a → Uses a l → (a.who = o ∧ j < n) ∨ Know tr (.mutex m) j

/-- Written only by `o` among the first `n` events. -/
def Fixed (tr : List (Ev T M L)) (o : T) (n : Nat) (l : L) : Prop :=
  ∀ j a, tr[j]? = some a → a.act = .write l → a.who = o ∧ j < n

/-- The events of `o` among the first `n` are known. -/
def Epoch (tr : List (Ev T M L)) (o : T) (n : Nat) (x : Who T M) : Prop :=
  ∀ j a, tr[j]? = some a → a.who = o → j < n → Know tr x j

variable {o t : T} {n : Nat} {m : M} {l : L} {x : Who T M} {r : List (Act T M L)}

theorem Held.append (h : Held tr o n m l) (hr : Flushed m l r) : Held (tr ++ by_ t r) o n m l := by
  intro j a hj hu
  rcases flushed_know hr hj hu with h1 | h1
  · exact (h j a h1 hu).imp id Know.mono
  · exact .inr h1

theorem Held.float (h : Held tr o n m l) (hn : n ≤ tr.length) :
    Held (tr ++ by_ o r) o (tr ++ by_ o r).length m l := by
  intro j a hj hu
  rcases by_who hj with h1 | h1
  · refine (h j a h1 hu).imp (fun h2 => ⟨h2.1, ?_⟩) Know.mono
    rw [List.length_append]; omega
  · exact .inl ⟨h1.1, get_lt hj⟩

theorem Fixed.append (h : Fixed tr o n l) (hr : ∀ a ∈ r, a ≠ .write l) : Fixed (tr ++ by_ t r) o n l := by
  intro j a hj hu
  rcases by_who hj with h1 | h1
  · exact h j a h1 hu
  · exact (hr _ h1.2.1 hu).elim

theorem Fixed.float (h : Fixed tr o n l) : Fixed (tr ++ by_ o r) o (tr ++ by_ o r).length l := by
  intro j a hj hu
  rcases by_who hj with h1 | h1
  · refine ⟨(h j a h1 hu).1, get_lt hj⟩
  · exact ⟨h1.1, get_lt hj⟩

theorem Epoch.append (h : Epoch tr o n x) (hn : n ≤ tr.length) : Epoch (tr ++ es) o n x := by
  intro j a hj hu hlt
  rw [List.getElem?_append_left (by omega)] at hj
  exact (h j a hj hu hlt).mono

theorem Epoch.self : Epoch tr o n (.thread o) := fun _ _ hj hu _ => .self hj hu

theorem Epoch.acquire (h : Epoch tr o n (.mutex m)) (hn : n ≤ tr.length) (hr : Act.acquire m ∈ r) :
    Epoch (tr ++ by_ t r) o n (.thread t) := by
  intro j a hj hu hlt
  rw [List.getElem?_append_left (by omega)] at hj
  exact know_acquire_mem (h j a hj hu hlt) hr

theorem Epoch.release (hn : n ≤ tr.length) (hr : Act.release m ∈ r) : Epoch (tr ++ by_ o r) o n (.mutex m) := by
  intro j a hj hu hlt
  rw [List.getElem?_append_left (by omega)] at hj
  exact know_release_mem (.self hj hu) hr

theorem Epoch.create (hn : n ≤ tr.length) (hr : Act.create t ∈ r) : Epoch (tr ++ by_ o r) o n (.thread t) := by
  intro j a hj hu hlt
  rw [List.getElem?_append_left (by omega)] at hj
  exact know_create_mem (.self hj hu) hr

theorem Held.guard (h : Held tr o n m l) (he : Epoch tr o n (.thread t)) : Guard tr t m l := by
  intro j a hj hu
  rcases h j a hj hu with h1 | h1
  · exact .inr (he j a hj h1.1 h1.2)
  · exact .inl h1

theorem Fixed.ready (h : Fixed tr o n l) (he : Epoch tr o n (.thread t)) : ReadyR tr t l := by
  intro j a hj hu
  obtain ⟨h1, h2⟩ := h j a hj hu
  exact he j a hj h1 h2

/-! ## Lists of actions with at most one mutex at a time -/

/-- `A` may be used, `B` may be read, `G m` may be used while the thread has `m`; `h` is the mutex that it has. At the end it
has none. -/
def Prog (A B : L → Prop) (G : M → L → Prop) : Option M → List (Act T M L) → Prop
  | h, [] => h = none
  | h, .acquire m :: r => h = none ∧ Prog A B G (some m) r
  | h, .release m :: r => h = some m ∧ Prog A B G none r
  | h, .read l :: r => (A l ∨ B l ∨ ∃ m, h = some m ∧ G m l) ∧ Prog A B G h r
  | h, .write l :: r => (A l ∨ ∃ m, h = some m ∧ G m l) ∧ Prog A B G h r
  | h, .create _ :: r => Prog A B G h r
  | h, .join _ :: r => Prog A B G h r

variable {A B : L → Prop} {G : M → L → Prop} {h : Option M}

theorem prog_append {r' : List (Act T M L)} (h1 : Prog A B G h r) (h2 : Prog A B G none r') :
    Prog A B G h (r ++ r') := by
  induction r generalizing h with
  | nil => cases (show h = none from h1); exact h2
  | cons a r ih =>
    cases a with
    | acquire m => exact ⟨h1.1, ih h1.2⟩
    | release m => exact ⟨h1.1, ih h1.2⟩
    | read l => exact ⟨h1.1, ih h1.2⟩
    | write l => exact ⟨h1.1, ih h1.2⟩
    | create t => exact ih h1
    | join t => exact ih h1

theorem prog_chk (hp : Prog A B G h r) (A' : L → Prop) (hA : ∀ l, A l → A' l) (hG : ∀ m, h = some m → ∀ l, G m l → A' l) :
    Chk B G A' r := by
  induction r generalizing h A' with
  | nil => trivial
  | cons a r ih =>
    cases a with
    | acquire m =>
      refine ih hp.2 _ (fun l hl => .inl (hA l hl)) ?_
      rintro m' ⟨rfl⟩ l hl
      exact .inr hl
    | release m => exact ih hp.2 _ hA (by simp)
    | read l =>
      refine ⟨?_, ih hp.2 _ hA hG⟩
      rcases hp.1 with h1 | h1 | ⟨m, h1, h2⟩
      · exact .inl (hA l h1)
      · exact .inr h1
      · exact .inl (hG m h1 l h2)
    | write l =>
      refine ⟨?_, ih hp.2 _ hA hG⟩
      rcases hp.1 with h1 | ⟨m, h1, h2⟩
      · exact hA l h1
      · exact hG m h1 l h2
    | create t => exact ih hp _ hA hG
    | join t => exact ih hp _ hA hG

theorem prog_raceFree (hp : Prog A B G none r) (h0 : RaceFree tr) (hA : ∀ l, A l → Ready tr t l)
    (hB : ∀ l, B l → ReadyR tr t l) (hG : ∀ m l, G m l → Guard tr t m l) : RaceFree (tr ++ by_ t r) :=
  chk_raceFree (prog_chk hp A (fun _ => id) (by simp)) h0 hA hB hG

/-- A variable that may only be used with the mutex `m`. -/
theorem prog_flushed (hp : Prog A B G h r) (h1 : ¬ A l) (h2 : ¬ B l) (h3 : ∀ m', G m' l → m' = m) :
    Flushed m l r ∧ (h = some m → Act.release m ∈ r) := by
  induction r generalizing h with
  | nil => exact ⟨trivial, fun h4 => by cases (show h = none from hp); cases h4⟩
  | cons a r ih =>
    cases a with
    | acquire m' => exact ⟨⟨by simp, (ih hp.2).1⟩, fun h4 => by rw [hp.1] at h4; cases h4⟩
    | release m' =>
      refine ⟨⟨by simp, (ih hp.2).1⟩, fun h4 => ?_⟩
      have := hp.1.symm.trans h4
      injection this with this
      subst this
      exact List.mem_cons_self
    | read l' =>
      obtain ⟨h5, h6⟩ := ih hp.2
      refine ⟨⟨?_, h5⟩, fun h4 => List.mem_cons_of_mem _ (h6 h4)⟩
      rintro (h4 | h4)
      · injection h4 with h4
        subst h4
        rcases hp.1 with h7 | h7 | ⟨m', h7, h8⟩
        · exact (h1 h7).elim
        · exact (h2 h7).elim
        · exact h6 (by rw [h7, h3 m' h8])
      · cases h4
    | write l' =>
      obtain ⟨h5, h6⟩ := ih hp.2
      refine ⟨⟨?_, h5⟩, fun h4 => List.mem_cons_of_mem _ (h6 h4)⟩
      rintro (h4 | h4)
      · cases h4
      · injection h4 with h4
        subst h4
        rcases hp.1 with h7 | ⟨m', h7, h8⟩
        · exact (h1 h7).elim
        · exact h6 (by rw [h7, h3 m' h8])
    | create t' =>
      obtain ⟨h5, h6⟩ := ih hp
      exact ⟨⟨by simp, h5⟩, fun h4 => List.mem_cons_of_mem _ (h6 h4)⟩
    | join t' =>
      obtain ⟨h5, h6⟩ := ih hp
      exact ⟨⟨by simp, h5⟩, fun h4 => List.mem_cons_of_mem _ (h6 h4)⟩

/-- Everything that is used is permitted. -/
theorem prog_uses (hp : Prog A B G h r) {a : Act T M L} (ha : a ∈ r) (hu : a = .read l ∨ a = .write l) :
    A l ∨ (a = .read l ∧ B l) ∨ ∃ m, G m l := by
  induction r generalizing h with
  | nil => cases ha
  | cons b r ih =>
    rcases List.mem_cons.mp ha with rfl | ha1
    · rcases hu with rfl | rfl
      · rcases hp.1 with h1 | h1 | ⟨m, _, h1⟩
        · exact .inl h1
        · exact .inr (.inl ⟨rfl, h1⟩)
        · exact .inr (.inr ⟨m, h1⟩)
      · rcases hp.1 with h1 | ⟨m, _, h1⟩
        · exact .inl h1
        · exact .inr (.inr ⟨m, h1⟩)
    · cases b with
      | acquire m => exact ih hp.2 ha1
      | release m => exact ih hp.2 ha1
      | read l => exact ih hp.2 ha1
      | write l => exact ih hp.2 ha1
      | create t => exact ih hp ha1
      | join t => exact ih hp ha1

end Dysco.Race

namespace Dysco.Multi
variable {X : Type}

theorem lastIdx_snoc (l : List (Nat × X)) (b b' : Nat) (x : X) :
    lastIdx (l ++ [(b, x)]) b' = if b = b' then l.length else lastIdx l b' := by
  unfold lastIdx
  rw [List.zipIdx_append, List.foldl_append]
  simp

theorem lastIdx_get {l : List (Nat × X)} {b : Nat} (h : ∃ x ∈ l, x.1 = b) :
    ∃ x, l[lastIdx l b]? = some (b, x) := by
  induction l using List.reverseRecOn with
  | nil => obtain ⟨x, hx, _⟩ := h; cases hx
  | append_singleton l y ih =>
    obtain ⟨b', y⟩ := y
    rw [lastIdx_snoc]
    split
    · rename_i hb
      subst hb
      exact ⟨y, by simp⟩
    · rename_i hb
      obtain ⟨x, hx, e⟩ := h
      rcases List.mem_append.mp hx with hx | hx
      · obtain ⟨z, hz⟩ := ih ⟨x, hx, e⟩
        refine ⟨z, ?_⟩
        rw [List.getElem?_append_left (List.getElem?_eq_some_iff.mp hz).1, hz]
      · rw [List.mem_singleton] at hx
        subst hx
        exact (hb e).elim

theorem lastIdx_lt {l : List (Nat × X)} {b : Nat} (h : ∃ x ∈ l, x.1 = b) : lastIdx l b < l.length := by
  obtain ⟨x, hx⟩ := lastIdx_get h
  exact (List.getElem?_eq_some_iff.mp hx).1

theorem lastIdx_inj {l : List (Nat × X)} {b b' : Nat} (h : ∃ x ∈ l, x.1 = b) (h' : ∃ x ∈ l, x.1 = b')
    (e : lastIdx l b = lastIdx l b') : b = b' := by
  obtain ⟨x, hx⟩ := lastIdx_get h
  obtain ⟨y, hy⟩ := lastIdx_get h'
  rw [e, hy] at hx
  injection hx with hx
  injection hx with hx
  exact hx.symm

end Dysco.Multi
