import Verif.StreamModel
import Verif.StorageProps

namespace Dysco.Stream
open BytePacker StMan

variable {n : Nat} {m0 : Man} {prog : Fin n → List Req}

/-! ## Writing in pieces -/

theorem fwrite_append (f : Mem 8) (off : Nat) (l : List Byte) (x : Byte) :
    fwrite (fwriteList f off l) (off + l.length) 1 (fun _ => x) = fwriteList f off (l ++ [x]) := by
  unfold fwriteList fwrite
  simp only [List.length_append, List.length_singleton, Nat.add_eq_zero_iff, one_ne_zero, and_false, if_false]
  by_cases h : l.length = 0
  · have : l = [] := List.length_eq_zero_iff.mp h
    subst this
    simp only [List.length_nil, if_true, Nat.add_zero, List.nil_append, Nat.zero_add]
    congr 1
    funext j
    by_cases hj : off ≤ j ∧ j < off + 1
    · have : j - off = 0 := by omega
      rw [if_pos hj, if_pos hj, this]
      rfl
    · rw [if_neg hj, if_neg hj]
  · rw [if_neg h]
    congr 1
    · simp only
      omega
    · funext j
      simp only
      by_cases h1 : off + l.length ≤ j ∧ j < off + l.length + 1
      · have h2 : j - off = l.length := by omega
        rw [if_pos h1, if_pos (by omega), h2]
        simp [List.getD]
      · rw [if_neg h1]
        by_cases h2 : off ≤ j ∧ j < off + l.length
        · rw [if_pos (by omega), if_pos h2, if_pos (by omega)]
          simp only [List.getD_eq_getElem?_getD]
          rw [List.getElem?_append_left (by omega)]
        · have h4 : ¬(off ≤ j ∧ j < off + (l.length + 1)) := by omega
          rw [if_neg h2, if_neg h4]
          by_cases h3 : j < f.len
          · rw [if_pos (lt_max_of_lt_left h3)]
          · rw [if_neg h3, ite_self]

/-! ## What the calls do as single steps, one after another -/

/-- The calls of the list, made one after another from `m`, return the results of the list and lead to the second
manager. -/
def Replay {α : Type} : Man → List (α × Req × Resp) → Man → Prop
  | m, [], m' => m = m'
  | m, (_, q, r) :: l, m' => (exec m q).2 = r ∧ Replay (exec m q).1 l m'

theorem Replay.snoc {α : Type} {m m' : Man} {l : List (α × Req × Resp)} {a : α} {q : Req} {r : Resp}
    (h : Replay m l m') (hr : (exec m' q).2 = r) : Replay m (l ++ [(a, q, r)]) (exec m' q).1 := by
  induction l generalizing m with
  | nil => simp only [Replay] at h; subst h; exact ⟨hr, rfl⟩
  | cons x l ih => exact ⟨h.1, ih h.2⟩

/-- What has happened since the manager was `m`, for a thread at `pc`. -/
def Part (m : Man) (s : State n) : PC → Prop
  | .idle => True
  | .writeCount .. | .readSeek .. | .countRead => s.man = m
  | .writeSeek b .. => s.man = { m with nBlocks := if m.nBlocks ≤ b then b + 1 else m.nBlocks }
  | .writeData b c _ _ => s.man = { m with nBlocks := if m.nBlocks ≤ b then b + 1 else m.nBlocks } ∧
      (m.failed = false → s.pos = getFileOffset m b + c.offset)
  | .readData b c _ _ => s.man = m ∧ (m.failed = false → s.pos = getFileOffset m b + c.offset)
  | .headSeek ch => s.man = ch.apply m
  | .headFill ch => s.man = ch.apply m ∧ (m.failed = false → s.pos = 0)
  | .headBytes ch rest => ∃ l, (ch.apply m).headerBytes = l ++ rest ∧
      s.man = { ch.apply m with
        headerSize := headerSizeOf (ch.apply m).name (ch.apply m).columns
        file := if m.failed then (ch.apply m).file else fwriteList (ch.apply m).file 0 l } ∧
      (m.failed = false → s.pos = l.length)

/-- The invariant of the calls on the stream. Not in the code. -/
structure Inv (m0 : Man) (prog : Fin n → List Req) (s : State n) : Prop where
  excl : ∀ t u, s.pcs t ≠ .idle → s.pcs u ≠ .idle → t = u
  lock : ∀ t, (s.pcs t).locked = true ↔ s.holder = some t
  split : ∀ t, (s.log.filter (·.1 = t)).map (·.2.1) ++ ((s.pcs t).req.toList ++ s.todo t) = prog t
  replay : ∃ m, Replay m0 s.log m ∧ ((∀ t, s.pcs t = .idle) → s.man = m) ∧ ∀ t, Part m s (s.pcs t)

theorem inv_initial (m : Man) (pos : Nat) (prog : Fin n → List Req) : Inv m prog (initial m pos prog) where
  excl := fun t _ h => absurd rfl h
  lock := fun t => by simp [initial, PC.locked]
  split := fun t => by simp [initial, PC.req]
  replay := ⟨m, rfl, fun _ => rfl, fun _ => trivial⟩

/-- The change before the header leaves the fail bit alone. -/
theorem apply_failed (m : Man) (ch : Change) : (ch.apply m).failed = m.failed := by cases ch <;> rfl

/-- A thread begins a call. -/
theorem inv_begin {s s' : State n} {t : Fin n} {pc : PC} {q : Req} {rest : List Req} (hi : Inv m0 prog s)
    (ht : s.pcs t = .idle) (htodo : s.todo t = q :: rest) (hq : pc.req = some q) (hall : ∀ u, s.pcs u = .idle)
    (hpcs : s'.pcs = Function.update s.pcs t pc) (htodo' : s'.todo = Function.update s.todo t rest)
    (hlog : s'.log = s.log) (hh : s'.holder = if pc.locked then some t else none)
    (hpart : ∀ m, s.man = m → Part m s' pc) : Inv m0 prog s' := by
  obtain ⟨m, hm1, hm2, -⟩ := hi.replay
  have hpc : pc ≠ .idle := by rintro rfl; cases hq
  refine ⟨fun u w hu hw => ?_, fun u => ?_, fun u => ?_, m, by rw [hlog]; exact hm1, fun h => ?_, fun u => ?_⟩
  · rw [hpcs] at hu hw
    by_cases h1 : u = t
    · by_cases h2 : w = t
      · rw [h1, h2]
      · rw [Function.update_of_ne h2] at hw; exact absurd (hall w) hw
    · rw [Function.update_of_ne h1] at hu; exact absurd (hall u) hu
  · rw [hpcs, hh]
    by_cases h1 : u = t
    · subst h1
      rw [Function.update_self]
      cases pc.locked <;> simp
    · rw [Function.update_of_ne h1, hall u]
      have : t ≠ u := fun h => h1 h.symm
      cases pc.locked <;> simp [PC.locked, this]
  · rw [hpcs, hlog, htodo', ← hi.split u]
    by_cases h1 : u = t
    · subst h1
      rw [Function.update_self, Function.update_self, hq, ht, htodo]
      rfl
    · rw [Function.update_of_ne h1, Function.update_of_ne h1]
  · have := h t
    rw [hpcs, Function.update_self] at this
    exact absurd this hpc
  · rw [hpcs]
    by_cases h1 : u = t
    · subst h1; rw [Function.update_self]; exact hpart m (hm2 hall)
    · rw [Function.update_of_ne h1, hall u]; trivial

/-- A thread goes on in its call. -/
theorem inv_goto {s s' : State n} {t : Fin n} {pc : PC} (hi : Inv m0 prog s)
    (ht : s.pcs t ≠ .idle) (hq : pc.req = (s.pcs t).req) (hpcs : s'.pcs = Function.update s.pcs t pc)
    (htodo' : s'.todo = s.todo) (hlog : s'.log = s.log) (hh : s'.holder = s.holder) (hl : pc.locked = (s.pcs t).locked)
    (hpart : ∀ m, Part m s (s.pcs t) → Part m s' pc) : Inv m0 prog s' := by
  obtain ⟨m, hm1, hm2, hm3⟩ := hi.replay
  have hne : pc ≠ .idle := by
    rintro rfl
    cases h : s.pcs t <;> simp_all [PC.req]
  have hall : ∀ u, u ≠ t → s.pcs u = .idle := fun u hu => by
    by_contra h
    exact hu (hi.excl u t h ht)
  refine ⟨fun u w hu hw => ?_, fun u => ?_, fun u => ?_, m, by rw [hlog]; exact hm1, fun h => ?_, fun u => ?_⟩
  · rw [hpcs] at hu hw
    by_cases h1 : u = t
    · by_cases h2 : w = t
      · rw [h1, h2]
      · rw [Function.update_of_ne h2] at hw; exact absurd (hall w h2) hw
    · rw [Function.update_of_ne h1] at hu; exact absurd (hall u h1) hu
  · rw [hpcs, hh, ← hi.lock u]
    by_cases h1 : u = t
    · subst h1; rw [Function.update_self, hl]
    · rw [Function.update_of_ne h1]
  · rw [hpcs, hlog, htodo', ← hi.split u]
    by_cases h1 : u = t
    · subst h1; rw [Function.update_self, hq]
    · rw [Function.update_of_ne h1]
  · have := h t
    rw [hpcs, Function.update_self] at this
    exact absurd this hne
  · rw [hpcs]
    by_cases h1 : u = t
    · subst h1; rw [Function.update_self]; exact hpart m (hm3 u)
    · rw [Function.update_of_ne h1, hall u h1]; trivial

/-- A call returns. -/
theorem inv_ret {s s' : State n} {t : Fin n} {q : Req} {r : Resp} (hi : Inv m0 prog s)
    (hq : (s.pcs t).req = some q) (hpcs : s'.pcs = Function.update s.pcs t .idle)
    (htodo' : s'.todo = s.todo) (hlog : s'.log = s.log ++ [(t, q, r)])
    (hh : s'.holder = if (s.pcs t).locked then none else s.holder)
    (hex : ∀ m, Part m s (s.pcs t) → exec m q = (s'.man, r)) : Inv m0 prog s' := by
  obtain ⟨m, hm1, hm2, hm3⟩ := hi.replay
  have ht : s.pcs t ≠ .idle := by intro h; rw [h] at hq; cases hq
  have hall : ∀ u, u ≠ t → s.pcs u = .idle := fun u hu => by
    by_contra h
    exact hu (hi.excl u t h ht)
  have hall' : ∀ u, s'.pcs u = .idle := fun u => by
    rw [hpcs]
    by_cases h1 : u = t
    · subst h1; rw [Function.update_self]
    · rw [Function.update_of_ne h1, hall u h1]
  have he := hex m (hm3 t)
  refine ⟨fun u w hu => absurd (hall' u) hu, fun u => ?_, fun u => ?_, s'.man, ?_, fun _ => rfl,
    fun u => by rw [hall' u]; trivial⟩
  · rw [hall' u, hh]
    have h2 := hi.lock t
    constructor
    · intro h; cases h
    · intro h
      exfalso
      cases hl : (s.pcs t).locked with
      | true => rw [hl] at h; cases h
      | false =>
        rw [hl, if_neg (by simp)] at h
        have h3 := (hi.lock u).mpr h
        by_cases h1 : u = t
        · subst h1; rw [hl] at h3; cases h3
        · rw [hall u h1] at h3; cases h3
  · rw [hall' u, hlog, htodo', ← hi.split u]
    by_cases h1 : u = t
    · subst h1
      rw [hq]
      simp [PC.req]
    · have : t ≠ u := fun h => h1 h.symm
      rw [hall u h1]
      simp [this]
  · rw [hlog]
    have := Replay.snoc (a := t) hm1 (q := q) (r := r) (by rw [he])
    rwa [he] at this

theorem inv_step {s s' : State n} {t : Fin n} (hi : Inv m0 prog s) (ha : HeaderAlone s') (e : step s t = some s') :
    Inv m0 prog s' := by
  have hstart : ∀ pc, s'.pcs = Function.update s.pcs t pc → pc ≠ .idle → (pc.inHeader = true ∨ s.holder = none) →
      s.pcs t = .idle → ∀ u, s.pcs u = .idle := by
    intro pc hpcs hpc hh ht u
    by_cases h1 : u = t
    · rw [h1, ht]
    · by_contra hu
      have hu' : s'.pcs u = s.pcs u := by rw [hpcs, Function.update_of_ne h1]
      have ht' : s'.pcs t = pc := by rw [hpcs, Function.update_self]
      rcases hh with hh | hh
      · exact hu (hu' ▸ ha t u (by rw [ht']; exact hh) h1)
      · have hl : (s.pcs u).locked = false := by
          rw [Bool.eq_false_iff]
          intro h
          rw [hi.lock u, hh] at h
          cases h
        have : (s'.pcs u).inHeader = true := by
          rw [hu']
          revert hl hu
          cases s.pcs u <;> simp [PC.locked, PC.inHeader]
        exact hpc (ht' ▸ ha u t this (fun h => h1 h.symm))
  unfold step at e
  cases hpc : s.pcs t with
  | idle =>
    simp only [hpc] at e
    cases ht : s.todo t with
    | nil => rw [ht] at e; cases e
    | cons q rest =>
      cases q with
      | header ch =>
        simp only [ht] at e
        injection e with e
        have hall := hstart (.headSeek ch) (by rw [← e]; rfl) (by simp) (.inl rfl) hpc
        refine inv_begin hi hpc ht (pc := .headSeek ch) rfl hall (by rw [← e]; rfl) (by rw [← e]; rfl) (by rw [← e]; rfl) ?_ ?_
        · rw [← e]
          show s.holder = none
          cases hh : s.holder with
          | none => rfl
          | some u => have := (hi.lock u).mpr hh; rw [hall u] at this; cases this
        · rintro m rfl
          rw [← e]
          rfl
      | write b c d size =>
        simp only [ht] at e
        split at e
        · cases e
        · rename_i hh
          have hn : s.holder = none := by cases h : s.holder <;> simp_all
          injection e with e
          refine inv_begin hi hpc ht (pc := .writeCount b c d size) rfl
            (hstart _ (by rw [← e]; rfl) (by simp) (.inr hn) hpc) (by rw [← e]; rfl) (by rw [← e]; rfl) (by rw [← e]; rfl)
            (by rw [← e]; rfl) ?_
          rintro m rfl
          rw [← e]
          rfl
      | read b c d size =>
        simp only [ht] at e
        split at e
        · cases e
        · rename_i hh
          have hn : s.holder = none := by cases h : s.holder <;> simp_all
          injection e with e
          refine inv_begin hi hpc ht (pc := .readSeek b c d size) rfl
            (hstart _ (by rw [← e]; rfl) (by simp) (.inr hn) hpc) (by rw [← e]; rfl) (by rw [← e]; rfl) (by rw [← e]; rfl)
            (by rw [← e]; rfl) ?_
          rintro m rfl
          rw [← e]
          rfl
      | count =>
        simp only [ht] at e
        split at e
        · cases e
        · rename_i hh
          have hn : s.holder = none := by cases h : s.holder <;> simp_all
          injection e with e
          refine inv_begin hi hpc ht (pc := .countRead) rfl
            (hstart _ (by rw [← e]; rfl) (by simp) (.inr hn) hpc) (by rw [← e]; rfl) (by rw [← e]; rfl) (by rw [← e]; rfl)
            (by rw [← e]; rfl) ?_
          rintro m rfl
          rw [← e]
          rfl
  | writeCount b c d size =>
    simp only [hpc] at e
    injection e with e
    refine inv_goto hi (t := t) (pc := .writeSeek b c d size) (by rw [hpc]; simp) (by rw [hpc]; rfl) (by rw [← e]; rfl)
      (by rw [← e]; rfl) (by rw [← e]; rfl) (by rw [← e]; rfl) (by rw [hpc]; rfl) ?_
    intro m hm
    rw [hpc] at hm
    simp only [Part] at hm
    rw [← e]
    show _ = _
    rw [← hm]
    rfl
  | writeSeek b c d size =>
    simp only [hpc] at e
    injection e with e
    have hs : ∀ off, (s.seek off).pcs = s.pcs ∧ (s.seek off).todo = s.todo ∧ (s.seek off).log = s.log ∧
        (s.seek off).holder = s.holder ∧ (s.seek off).man = s.man := by
      intro off; unfold State.seek; split <;> exact ⟨rfl, rfl, rfl, rfl, rfl⟩
    refine inv_goto hi (t := t) (pc := .writeData b c d size) (by rw [hpc]; simp) (by rw [hpc]; rfl)
      (by rw [← e]; show Function.update _ _ _ = _; rw [(hs _).1])
      (by rw [← e]; exact (hs _).2.1) (by rw [← e]; exact (hs _).2.2.1) (by rw [← e]; exact (hs _).2.2.2.1)
      (by rw [hpc]; rfl) ?_
    intro m hm
    rw [hpc] at hm
    simp only [Part] at hm
    rw [← e]
    refine ⟨?_, fun hf => ?_⟩
    · rw [← hm]
      exact (hs _).2.2.2.2
    · have hf' : s.man.failed = false := by rw [hm]; exact hf
      show (s.seek _).pos = _
      unfold State.seek
      rw [if_neg (by simp [hf']), hm]
      rfl
  | writeData b c d size =>
    simp only [hpc] at e
    injection e with e
    have hs : (s.put size d.get).pcs = s.pcs ∧ (s.put size d.get).todo = s.todo ∧ (s.put size d.get).log = s.log ∧
        (s.put size d.get).holder = s.holder := by
      unfold State.put; split <;> exact ⟨rfl, rfl, rfl, rfl⟩
    refine inv_ret hi (t := t) (q := .write b c d size) (r := .done (!s.man.failed)) (by rw [hpc]; rfl)
      (by rw [← e]; show Function.update _ _ _ = _; rw [hs.1]) (by rw [← e]; exact hs.2.1)
      (by rw [← e]; show (s.put size d.get).log ++ _ = _; rw [hs.2.2.1]) (by rw [← e, hpc]; rfl) ?_
    intro m hm
    rw [hpc] at hm
    obtain ⟨hm1, hm2⟩ := hm
    rw [← e]
    show (_, _) = ((s.put size d.get).man, _)
    unfold State.put writeCompressedData
    cases hf : m.failed with
    | true =>
      have hf' : s.man.failed = true := by rw [hm1]; exact hf
      simp only [hf', if_true, Bool.not_true]
      rw [hm1]
      simp only [hf]
    | false =>
      have hf' : s.man.failed = false := by rw [hm1]; exact hf
      simp only [hf', Bool.false_eq_true, if_false, Bool.not_false]
      rw [hm2 hf, hm1]
      rfl
  | readSeek b c d size =>
    simp only [hpc] at e
    injection e with e
    have hs : ∀ off, (s.seek off).pcs = s.pcs ∧ (s.seek off).todo = s.todo ∧ (s.seek off).log = s.log ∧
        (s.seek off).holder = s.holder ∧ (s.seek off).man = s.man := by
      intro off; unfold State.seek; split <;> exact ⟨rfl, rfl, rfl, rfl, rfl⟩
    refine inv_goto hi (t := t) (pc := .readData b c d size) (by rw [hpc]; simp) (by rw [hpc]; rfl)
      (by rw [← e]; show Function.update _ _ _ = _; rw [(hs _).1])
      (by rw [← e]; exact (hs _).2.1) (by rw [← e]; exact (hs _).2.2.1) (by rw [← e]; exact (hs _).2.2.2.1)
      (by rw [hpc]; rfl) ?_
    intro m hm
    rw [hpc] at hm
    simp only [Part] at hm
    rw [← e]
    refine ⟨?_, fun hf => ?_⟩
    · rw [← hm]
      exact (hs _).2.2.2.2
    · have hf' : s.man.failed = false := by rw [hm]; exact hf
      show (s.seek _).pos = _
      unfold State.seek
      rw [if_neg (by simp [hf']), hm]
  | readData b c d size =>
    simp only [hpc] at e
    have hgot : ∀ m, Part m s (s.pcs t) → s.got d size = (if m.failed then d else
        ⟨d.len, fun i => if i < size ∧ getFileOffset m b + c.offset + i < m.file.len then
          m.file.get (getFileOffset m b + c.offset + i) else d.get i⟩) ∧
        (s.short size ↔ (m.failed ∨ m.file.len < getFileOffset m b + c.offset + size)) := by
      intro m hm
      rw [hpc] at hm
      obtain ⟨hm1, hm2⟩ := hm
      unfold State.got State.short
      rw [hm1]
      cases hf : m.failed with
      | true => simp
      | false => rw [hm2 hf]; simp
    have hman : ∀ m, Part m s (s.pcs t) → s.man = m := fun m hm => by rw [hpc] at hm; exact hm.1
    split at e
    · rename_i hsh
      split at e
      · rename_i hb
        injection e with e
        refine inv_ret hi (t := t) (q := .read b c d size) (r := .bytes (s.got d size) false) (by rw [hpc]; rfl)
          (by rw [← e]; rfl) (by rw [← e]; rfl) (by rw [← e]; rfl) (by rw [← e, hpc]; rfl) ?_
        intro m hm
        rw [← e, (hgot m hm).1]
        show (_, _) = (({ s.man with failed := true } : Man), _)
        have h1 := (hgot m hm).2.mp hsh
        have h2 := hman m hm
        rw [h2] at hb ⊢
        simp only [readCompressedData, if_pos h1, if_pos hb]
      · rename_i hb
        injection e with e
        refine inv_ret hi (t := t) (q := .read b c d size) (r := .bytes (s.got d size) true) (by rw [hpc]; rfl)
          (by rw [← e]; rfl) (by rw [← e]; rfl) (by rw [← e]; rfl) (by rw [← e, hpc]; rfl) ?_
        intro m hm
        rw [← e, (hgot m hm).1]
        show (_, _) = (({ s.man with failed := false } : Man), _)
        have h1 := (hgot m hm).2.mp hsh
        have h2 := hman m hm
        rw [h2] at hb ⊢
        simp only [readCompressedData, if_pos h1, if_neg hb]
    · rename_i hsh
      injection e with e
      refine inv_ret hi (t := t) (q := .read b c d size) (r := .bytes (s.got d size) true) (by rw [hpc]; rfl)
        (by rw [← e]; rfl) (by rw [← e]; rfl) (by rw [← e]; rfl) (by rw [← e, hpc]; rfl) ?_
      intro m hm
      rw [← e, (hgot m hm).1]
      show (_, _) = (s.man, _)
      have h1 := mt (hgot m hm).2.mpr hsh
      have h2 := hman m hm
      rw [h2]
      simp only [readCompressedData, if_neg h1]
  | countRead =>
    simp only [hpc] at e
    injection e with e
    refine inv_ret hi (t := t) (q := .count) (r := .number s.man.nBlocks) (by rw [hpc]; rfl)
      (by rw [← e]; rfl) (by rw [← e]; rfl) (by rw [← e]; rfl) (by rw [← e, hpc]; rfl) ?_
    intro m hm
    rw [hpc] at hm
    simp only [Part] at hm
    rw [← e, ← hm]
    rfl
  | headSeek ch =>
    simp only [hpc] at e
    injection e with e
    have hs : ∀ off, (s.seek off).pcs = s.pcs ∧ (s.seek off).todo = s.todo ∧ (s.seek off).log = s.log ∧
        (s.seek off).holder = s.holder ∧ (s.seek off).man = s.man := by
      intro off; unfold State.seek; split <;> exact ⟨rfl, rfl, rfl, rfl, rfl⟩
    refine inv_goto hi (t := t) (pc := .headFill ch) (by rw [hpc]; simp) (by rw [hpc]; rfl)
      (by rw [← e]; show Function.update _ _ _ = _; rw [(hs _).1])
      (by rw [← e]; exact (hs _).2.1) (by rw [← e]; exact (hs _).2.2.1) (by rw [← e]; exact (hs _).2.2.2.1)
      (by rw [hpc]; rfl) ?_
    intro m hm
    rw [hpc] at hm
    simp only [Part] at hm
    rw [← e]
    refine ⟨?_, fun hf => ?_⟩
    · rw [← hm]
      exact (hs _).2.2.2.2
    · have hf' : s.man.failed = false := by rw [hm, apply_failed]; exact hf
      show (s.seek _).pos = _
      unfold State.seek
      rw [if_neg (by simp [hf'])]
  | headFill ch =>
    simp only [hpc] at e
    injection e with e
    refine inv_goto hi (t := t) (pc := .headBytes ch s.man.headerBytes) (by rw [hpc]; simp) (by rw [hpc]; rfl) (by rw [← e]; rfl)
      (by rw [← e]; rfl) (by rw [← e]; rfl) (by rw [← e]; rfl) (by rw [hpc]; rfl) ?_
    intro m hm
    rw [hpc] at hm
    obtain ⟨hm1, hm2⟩ := hm
    rw [← e]
    refine ⟨[], by rw [hm1]; rfl, ?_, fun hf => hm2 hf⟩
    show ({ s.man with headerSize := _ } : Man) = _
    rw [hm1]
    simp [fwriteList, fwrite]
  | headBytes ch rest =>
    cases rest with
    | nil =>
      simp only [hpc] at e
      injection e with e
      refine inv_ret hi (t := t) (q := .header ch) (r := .done (!s.man.failed)) (by rw [hpc]; rfl)
        (by rw [← e]; rfl) (by rw [← e]; rfl) (by rw [← e]; rfl) (by rw [← e, hpc]; rfl) ?_
      intro m hm
      rw [hpc] at hm
      obtain ⟨l, hm1, hm2, -⟩ := hm
      rw [List.append_nil] at hm1
      rw [← e]
      show (_, _) = (s.man, _)
      have hf := apply_failed m ch
      rw [hm2]
      unfold writeHeader
      cases hm : m.failed <;> rw [hm] at hf <;> simp [hf, hm1]
    | cons x rest =>
      simp only [hpc] at e
      injection e with e
      have hs : (s.put 1 fun _ => x).pcs = s.pcs ∧ (s.put 1 fun _ => x).todo = s.todo ∧
          (s.put 1 fun _ => x).log = s.log ∧ (s.put 1 fun _ => x).holder = s.holder := by
        unfold State.put; split <;> exact ⟨rfl, rfl, rfl, rfl⟩
      refine inv_goto hi (t := t) (pc := .headBytes ch rest) (by rw [hpc]; simp) (by rw [hpc]; rfl)
        (by rw [← e]; show Function.update _ _ _ = _; rw [hs.1])
        (by rw [← e]; exact hs.2.1) (by rw [← e]; exact hs.2.2.1) (by rw [← e]; exact hs.2.2.2)
        (by rw [hpc]; rfl) ?_
      intro m hm
      rw [hpc] at hm
      obtain ⟨l, hm1, hm2, hm3⟩ := hm
      have hf := apply_failed m ch
      rw [← e]
      refine ⟨l ++ [x], by rw [hm1]; simp, ?_, fun hff => ?_⟩
      · show (s.put 1 fun _ => x).man = _
        unfold State.put
        cases hff : m.failed with
        | true =>
          rw [hff] at hf
          have : s.man.failed = true := by rw [hm2]; exact hf
          rw [if_pos this, hm2]
          simp [hff]
        | false =>
          rw [hff] at hf
          have : s.man.failed = false := by rw [hm2]; exact hf
          rw [if_neg (by simp [this]), hm3 hff, hm2]
          simp only [hff, Bool.false_eq_true, if_false]
          have := fwrite_append (ch.apply m).file 0 l x
          rw [Nat.zero_add] at this
          rw [this]
      · show (s.put 1 fun _ => x).pos = _
        rw [hff] at hf
        have : s.man.failed = false := by rw [hm2]; exact hf
        unfold State.put
        rw [if_neg (by simp [this])]
        show s.pos + 1 = _
        rw [hm3 hff, List.length_append]
        rfl

/-- Every state of a run in which headers are written alone. -/
theorem inv_run {m : Man} {pos : Nat} {l : List (State n)} (h : Run (initial m pos prog) l)
    (ha : ∀ s ∈ l, HeaderAlone s) : ∀ s ∈ l, Inv m prog s := by
  induction h with
  | start =>
    intro s hs
    rw [List.mem_singleton] at hs
    subst hs
    exact inv_initial m pos prog
  | step t hr e ih =>
    intro s hs
    have ih := ih fun s hs => ha s (List.mem_cons_of_mem _ hs)
    rcases List.mem_cons.mp hs with rfl | hs
    · exact inv_step (ih _ List.mem_cons_self) (ha _ List.mem_cons_self) e
    · exact ih s hs

/-- The calls on the stream are atomic. Along every run in which headers are written alone: when no call is under way,
the manager, the file and the results of all calls are those of the calls made one after another as single steps, in the
order in which they returned; and the calls of each thread are made in its order. -/
theorem calls_atomic {m : Man} {pos : Nat} {s : State n} {l : List (State n)} (h : Run (initial m pos prog) (s :: l))
    (ha : ∀ s' ∈ s :: l, HeaderAlone s') :
    (∀ t, (s.log.filter (·.1 = t)).map (·.2.1) ++ ((s.pcs t).req.toList ++ s.todo t) = prog t) ∧
    ∃ m', Replay m s.log m' ∧ ((∀ t, s.pcs t = .idle) → s.man = m') := by
  have hi := inv_run h ha s List.mem_cons_self
  obtain ⟨m', h1, h2, -⟩ := hi.replay
  exact ⟨hi.split, m', h1, h2⟩

/-- The call takes the mutex. -/
def Req.locks : Req → Bool
  | .header _ => false
  | _ => true

theorem locks_step {s s' : State n} {t : Fin n}
    (h : ∀ u, (∀ q ∈ s.todo u, q.locks = true) ∧ (s.pcs u).inHeader = false) (e : step s t = some s') :
    ∀ u, (∀ q ∈ s'.todo u, q.locks = true) ∧ (s'.pcs u).inHeader = false := by
  have key : ∀ (pc : PC) (rest : List Req), s'.pcs = Function.update s.pcs t pc →
      s'.todo = Function.update s.todo t rest → pc.inHeader = false → (∀ q ∈ rest, q.locks = true) →
      ∀ u, (∀ q ∈ s'.todo u, q.locks = true) ∧ (s'.pcs u).inHeader = false := by
    intro pc rest h1 h2 h3 h4 u
    rw [h1, h2]
    by_cases hu : u = t
    · subst hu
      rw [Function.update_self, Function.update_self]
      exact ⟨h4, h3⟩
    · rw [Function.update_of_ne hu, Function.update_of_ne hu]
      exact h u
  have hseek : ∀ off, (s.seek off).pcs = s.pcs ∧ (s.seek off).todo = s.todo := by
    intro off; unfold State.seek; split <;> exact ⟨rfl, rfl⟩
  have hput : ∀ size g, (s.put size g).pcs = s.pcs ∧ (s.put size g).todo = s.todo := by
    intro size g; unfold State.put; split <;> exact ⟨rfl, rfl⟩
  have ht := h t
  unfold step at e
  cases hpc : s.pcs t with
  | idle =>
    simp only [hpc] at e
    cases hq : s.todo t with
    | nil => rw [hq] at e; cases e
    | cons q rest =>
      rw [hq] at ht
      have hr : ∀ q ∈ rest, q.locks = true := fun q hq => ht.1 q (List.mem_cons_of_mem _ hq)
      cases q with
      | header ch => have := ht.1 _ List.mem_cons_self; cases this
      | write b c d size =>
        simp only [hq] at e
        split at e
        · cases e
        · injection e with e
          exact key (.writeCount b c d size) rest (by rw [← e]; rfl) (by rw [← e]; rfl) rfl hr
      | read b c d size =>
        simp only [hq] at e
        split at e
        · cases e
        · injection e with e
          exact key (.readSeek b c d size) rest (by rw [← e]; rfl) (by rw [← e]; rfl) rfl hr
      | count =>
        simp only [hq] at e
        split at e
        · cases e
        · injection e with e
          exact key .countRead rest (by rw [← e]; rfl) (by rw [← e]; rfl) rfl hr
  | writeCount b c d size =>
    simp only [hpc] at e
    injection e with e
    exact key (.writeSeek b c d size) (s.todo t) (by rw [← e]; rfl) (by rw [← e]; simp [State.goto]) rfl ht.1
  | writeSeek b c d size =>
    simp only [hpc] at e
    injection e with e
    exact key (.writeData b c d size) (s.todo t) (by rw [← e]; simp [State.goto, hseek])
      (by rw [← e]; simp [State.goto, hseek]) rfl ht.1
  | writeData b c d size =>
    simp only [hpc] at e
    injection e with e
    exact key .idle (s.todo t) (by rw [← e]; simp [State.ret, hput]) (by rw [← e]; simp [State.ret, hput]) rfl ht.1
  | readSeek b c d size =>
    simp only [hpc] at e
    injection e with e
    exact key (.readData b c d size) (s.todo t) (by rw [← e]; simp [State.goto, hseek])
      (by rw [← e]; simp [State.goto, hseek]) rfl ht.1
  | readData b c d size =>
    simp only [hpc] at e
    split at e
    · split at e <;> injection e with e <;>
        exact key .idle (s.todo t) (by rw [← e]; rfl) (by rw [← e]; simp [State.ret]) rfl ht.1
    · injection e with e
      exact key .idle (s.todo t) (by rw [← e]; rfl) (by rw [← e]; simp [State.ret]) rfl ht.1
  | countRead =>
    simp only [hpc] at e
    injection e with e
    exact key .idle (s.todo t) (by rw [← e]; rfl) (by rw [← e]; simp [State.ret]) rfl ht.1
  | headSeek ch => rw [hpc] at ht; cases ht.2
  | headFill ch => rw [hpc] at ht; cases ht.2
  | headBytes ch rest => rw [hpc] at ht; cases ht.2

/-- Reading and writing blocks and asking for their number, from any number of threads, is atomic under every
schedule. -/
theorem blocks_atomic {m : Man} {pos : Nat} {s : State n} {l : List (State n)}
    (hp : ∀ t, ∀ q ∈ prog t, q.locks = true) (h : Run (initial m pos prog) (s :: l)) :
    (∀ t, (s.log.filter (·.1 = t)).map (·.2.1) ++ ((s.pcs t).req.toList ++ s.todo t) = prog t) ∧
    ∃ m', Replay m s.log m' ∧ ((∀ t, s.pcs t = .idle) → s.man = m') := by
  refine calls_atomic h ?_
  have gen : ∀ l, Run (initial m pos prog) l → ∀ s ∈ l, ∀ u, (∀ q ∈ s.todo u, q.locks = true) ∧ (s.pcs u).inHeader = false := by
    intro l hr
    induction hr with
    | start =>
      intro s hs
      rw [List.mem_singleton] at hs
      subst hs
      exact fun u => ⟨hp u, rfl⟩
    | step t hr e ih =>
      intro s hs
      rcases List.mem_cons.mp hs with rfl | hs
      · exact locks_step (ih _ List.mem_cons_self) e
      · exact ih s hs
  intro s' hs' t u ht
  have := (gen _ h s' hs' t).2
  rw [ht] at this
  cases this

/-- A thread never waits in a call: as long as calls are under way or left, some thread can make a step. -/
theorem stream_progress {m : Man} {pos : Nat} {s : State n} {l : List (State n)} (h : Run (initial m pos prog) (s :: l))
    (ha : ∀ s' ∈ s :: l, HeaderAlone s') (hs : ∀ t, step s t = none) : ∀ t, s.pcs t = .idle ∧ s.todo t = [] := by
  have hi := inv_run h ha s List.mem_cons_self
  have hidle : ∀ t, s.pcs t = .idle := by
    intro t
    have h1 := hs t
    unfold step at h1
    cases hpc : s.pcs t with
    | idle => rfl
    | readData b c d size => simp only [hpc] at h1; split at h1 <;> [split at h1 <;> cases h1; cases h1]
    | headBytes ch rest => cases rest <;> simp [hpc] at h1
    | _ => simp [hpc] at h1
  intro t
  refine ⟨hidle t, ?_⟩
  have h1 := hs t
  unfold step at h1
  simp only [hidle t] at h1
  have hn : s.holder = none := by
    cases hh : s.holder with
    | none => rfl
    | some u => have := (hi.lock u).mpr hh; rw [hidle u] at this; cases this
  cases hq : s.todo t with
  | nil => rfl
  | cons q rest => cases q <;> simp [hq, hn] at h1

/-! ## A header that is not written alone -/

/-- The bytes of a header go to where the stream is. -/
theorem run_bytes {s0 s : State n} {l : List (State n)} {t : Fin n} {ch : Change} {bytes w : List Byte} {f : Mem 8}
    {off : Nat} (h : Run s0 (s :: l)) (hpc : s.pcs t = .headBytes ch bytes) (hf : s.man.failed = false)
    (hfile : s.man.file = fwriteList f off w) (hpos : s.pos = off + w.length) :
    ∃ l', Run s0 (State.ret { s with
      man := { s.man with file := fwriteList f off (w ++ bytes) }, pos := off + w.length + bytes.length }
      t s.holder (.header ch) (.done true) :: l') := by
  induction bytes generalizing s l w with
  | nil =>
    refine ⟨s :: l, .step t h ?_⟩
    have ho : (!s.man.failed) = true := by rw [hf]; rfl
    simp only [step, hpc]
    rw [List.append_nil, ← hfile, List.length_nil, Nat.add_zero, ← hpos, ho]
  | cons x bytes ih =>
    have e : step s t = some ((s.put 1 fun _ => x).goto t (.headBytes ch bytes)) := by simp only [step, hpc]
    obtain ⟨l', h'⟩ := ih (w := w ++ [x]) (.step t h e) (by simp [State.goto])
      (by simp [State.goto, State.put, hf])
      (by simp only [State.goto, State.put, hf, Bool.false_eq_true, if_false]; rw [hfile, hpos, fwrite_append])
      (by simp only [State.goto, State.put, hf, Bool.false_eq_true, if_false]; rw [hpos]; simp; omega)
    refine ⟨l', ?_⟩
    convert h' using 2
    simp [State.ret, State.goto, State.put, hf]
    omega

theorem headerBytes_nBlocks (m : Man) (k : Nat) : Man.headerBytes { m with nBlocks := k } = m.headerBytes := rfl

/-- The client removes a column, thread 1 writes a block of another column. -/
def racing (i b : Nat) (c : Column) (d : Mem 8) (size : Nat) : Fin 2 → List Req
  | 0 => [.header (.remove i)]
  | 1 => [.write b c d size]

/-- `removeColumn` writes the header without the mutex. For every manager and every block there is a schedule that
ends with the data of the block at the beginning of the file, the header after it, and nothing at the place of the
block; no error is reported. -/
theorem header_race (m : Man) (pos i b : Nat) (c : Column) (d : Mem 8) (size : Nat) (hf : m.failed = false) :
    ∃ (s : State 2) (l : List (State 2)), Run (initial m pos (racing i b c d size)) (s :: l) ∧
      (∀ t, s.pcs t = .idle ∧ s.todo t = []) ∧
      s.log = [(1, .write b c d size, .done true), (0, .header (.remove i), .done true)] ∧
      s.man.file = fwriteList (fwrite m.file 0 size d.get) size
        (Man.headerBytes { m with columns := m.columns.eraseIdx i }) := by
  obtain ⟨q1, q2, q3, q4, q5, q6, q7, q8, q9, q10, q11, q12, q13, q14, f, failed⟩ := m
  cases hf
  have h0 : Run (initial ⟨q1, q2, q3, q4, q5, q6, q7, q8, q9, q10, q11, q12, q13, q14, f, false⟩ pos
    (racing i b c d size)) [_] := .start
  have h1 := Run.step 1 h0 rfl
  have h2 := Run.step 1 h1 rfl
  have h3 := Run.step 1 h2 rfl
  have h4 := Run.step 0 h3 rfl
  have h5 := Run.step 0 h4 rfl
  have h6 := Run.step 1 h5 rfl
  have h7 := Run.step 0 h6 rfl
  obtain ⟨l, h8⟩ := run_bytes (t := 0) (w := []) (off := size) h7 rfl rfl rfl (Nat.zero_add _)
  refine ⟨_, l, h8, ?_, rfl, ?_⟩
  · intro t
    match t with
    | 0 => exact ⟨rfl, rfl⟩
    | 1 => exact ⟨rfl, rfl⟩
  · simp only [State.ret, List.nil_append]
    rw [headerBytes_nBlocks]
    rfl

/-- In that file the header is gone, and the place of the block, unless it is near the beginning, is as before. -/
theorem raced_file (f d : Mem 8) (size j : Nat) (bytes : List Byte) :
    (j < size → (fwriteList (fwrite f 0 size d.get) size bytes).get j = d.get j) ∧
    (size + bytes.length ≤ j → j < f.len → (fwriteList (fwrite f 0 size d.get) size bytes).get j = f.get j) := by
  unfold fwriteList
  refine ⟨fun hj => ?_, fun hj hl => ?_⟩
  · have h1 : j < (fwrite f 0 size d.get).len := by
      rw [fwrite_len _ _ _ _ (by omega)]
      exact lt_max_of_lt_right (by omega)
    rw [fwrite_get, if_neg (by omega), if_pos (Or.inr h1), fwrite_get, if_pos (by omega), Nat.sub_zero]
  · have h1 : j < (fwrite f 0 size d.get).len := by
      by_cases hs : size = 0
      · unfold fwrite; rw [if_pos hs]; exact hl
      · rw [fwrite_len _ _ _ _ hs]; exact lt_max_of_lt_left hl
    rw [fwrite_get, if_neg (by omega), if_pos (Or.inr h1), fwrite_get, if_neg (by omega), if_pos (Or.inr hl)]

/-! ## Examples -/

/-- A column of which only the offset in the block counts. -/
def column (offset : Nat) : Column := ⟨true, 4, 1, 8, .rf, 0, 0, offset⟩

/-- A new manager with two columns. -/
def manager : Man := ⟨0, 0, 2, 2, 8, 100, [], 8, 8, 0, 0, 0, 0, [column 0, column 4], ⟨0, fun _ => 0⟩, false⟩

/-- Two threads write to different columns of the same block, and one reads. -/
def calls : Fin 2 → List Req
  | 0 => [.write 0 (column 0) ⟨4, fun _ => 7⟩ 4, .read 0 (column 4) ⟨4, fun _ => 0⟩ 4]
  | 1 => [.write 0 (column 4) ⟨4, fun _ => 9⟩ 4]

example : ∀ t, ∀ q ∈ calls t, q.locks = true := by
  intro t
  match t with
  | 0 => simp [calls, Req.locks]
  | 1 => simp [calls, Req.locks]

/-- Thread 0 seeks, thread 1 has to wait. -/
example : ∃ s l, Run (initial manager 0 calls) (s :: l) ∧ s.holder = some 0 ∧ step s 1 = none :=
  ⟨_, _, .step 0 (.step 0 .start rfl) rfl, rfl, rfl⟩

/-- The run in which the header is written first, and then a block, has it alone in every state. -/
example : ∃ s l, Run (initial manager 0 (racing 0 0 (column 4) ⟨4, fun _ => 9⟩ 4)) (s :: l) ∧
    (s.pcs 0).inHeader = true ∧ ∀ s' ∈ s :: l, HeaderAlone s' := by
  refine ⟨_, _, .step 0 (.step 0 .start rfl) rfl, rfl, ?_⟩
  intro s' hs' t u ht hu
  simp only [List.mem_cons, List.not_mem_nil, or_false] at hs'
  rcases hs' with rfl | rfl | rfl <;>
  · match t, u with
    | 0, 0 => exact absurd rfl hu
    | 1, 1 => exact absurd rfl hu
    | 0, 1 => rfl
    | 1, 0 => cases ht

end Dysco.Stream
