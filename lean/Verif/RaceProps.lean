import Verif.RaceSteps

/-!
# No data races (C126)

`no_data_race` is for the calls of the model (put, get and closing, on a new or a reopened table). Two other calls of the
manager do race: `addColumn_race` and `removeColumn_race`.
-/

namespace Dysco.Race
variable {T M L : Type}

theorem raceFree_alone {o : T} (r : List (Act T M L)) : RaceFree (by_ o r) := by
  intro i j a b _ hi hj hc
  have h : ∀ {k : Nat} {e : Ev T M L}, (by_ o r)[k]? = some e → e.who = o := by
    intro k e he
    obtain ⟨x, _, rfl⟩ := List.mem_map.mp (List.mem_of_getElem? he)
    rfl
  exact (hc.1 ((h hi).trans (h hj).symm)).elim

/-- What a thread did is not ordered before what another thread does next without taking a mutex or joining. -/
theorem not_ordered {tr : List (Ev T M L)} {o t : T} (ht : t ≠ o) {r r' : List (Act T M L)}
    (hr : Act.create o ∉ r) (h1 : ∀ m, Act.acquire m ∉ r') (h2 : ∀ u, Act.join u ∉ r') {i j : Nat}
    (h : HB (tr ++ by_ t r ++ by_ o r') i j) (hj : j < tr.length ∨ tr.length + r.length ≤ j) :
    i < tr.length ∨ tr.length + r.length ≤ i := by
  induction h with
  | trans _ _ ih1 ih2 => exact ih1 (ih2 hj)
  | @edge i j a b hij hi hj' he =>
    by_contra hcon
    have hlen : (tr ++ by_ t r).length = tr.length + r.length := by simp
    have hj2 : tr.length + r.length ≤ j := by omega
    have hb : b.who = o ∧ b.act ∈ r' := by
      rcases by_who hj' with h3 | h3
      · have := get_lt h3
        omega
      · exact ⟨h3.1, h3.2.1⟩
    have ha : a.who = t ∧ a.act ∈ r := by
      rw [List.getElem?_append_left (by omega)] at hi
      rcases by_who hi with h3 | h3
      · have := get_lt h3
        omega
      · exact ⟨h3.1, h3.2.1⟩
    rcases he with he | ⟨m, _, he⟩ | he | he
    · exact ht (ha.1.symm.trans (he.trans hb.1))
    · exact h1 m (he ▸ hb.2)
    · exact hr (hb.1 ▸ he ▸ ha.2)
    · exact h2 a.who (he ▸ hb.2)

theorem race_of {tr : List (Ev T M L)} {o t : T} (ht : t ≠ o) {r r' : List (Act T M L)}
    (hr : Act.create o ∉ r) (h1 : ∀ m, Act.acquire m ∉ r') (h2 : ∀ u, Act.join u ∉ r') {l : L}
    (hw : Act.write l ∈ r) (hu : Act.read l ∈ r' ∨ Act.write l ∈ r') : ¬ RaceFree (tr ++ by_ t r ++ by_ o r') := by
  intro hf
  obtain ⟨i, hi⟩ := List.mem_iff_getElem?.mp hw
  obtain ⟨b, hb, hbl⟩ : ∃ b ∈ r', b = .read l ∨ b = .write l := by
    rcases hu with hu | hu
    · exact ⟨_, hu, .inl rfl⟩
    · exact ⟨_, hu, .inr rfl⟩
  obtain ⟨j, hj⟩ := List.mem_iff_getElem?.mp hb
  have hi' := (List.getElem?_eq_some_iff.mp hi).1
  have hlen : (tr ++ by_ t r).length = tr.length + r.length := by simp
  have e1 : (tr ++ by_ t r ++ by_ o r')[tr.length + i]? = some (⟨t, .write l⟩ : Ev T M L) := by
    rw [List.getElem?_append_left (by omega), List.getElem?_append_right (by omega)]
    simp [hi]
  have e2 : (tr ++ by_ t r ++ by_ o r')[tr.length + r.length + j]? = some (⟨o, b⟩ : Ev T M L) := by
    rw [List.getElem?_append_right (by omega), hlen]
    simp [hj]
  have h3 := hf _ _ _ _ (by omega) e1 e2 ⟨ht, l, .inr rfl, hbl, .inl rfl⟩
  have := not_ordered ht hr h1 h2 h3 (.inr (by omega))
  omega

end Dysco.Race

namespace Dysco.Multi
open Col Race
variable {K : Type} {c : Nat} {W : Fin c → Type} {P : (i : Fin c) → Params (W i) K}
  {k : K} {rows nB : Nat} {file : (i : Fin c) → Nat → Option (Rows (W i))} {prog : List (MOp W)}

theorem sound_of (hn : ∀ i, 0 < (P i).threads) {S : MState P} (h : Good k rows file nB prog S) : Sound S := by
  refine ⟨h.place, fun i => ?_⟩
  obtain ⟨done, hd⟩ := h.cols i
  exact ⟨_, initial_reachable_inv (hn i) (hd.reach [])⟩

theorem first_inv : RInv (minitial P k rows file nB prog) (firstEvents P rows) := by
  unfold firstEvents
  generalize ha : (([.rows, .layout, .nBlocks, .stream] : List (Var c)).map Act.write ++
    (List.finRange c).flatMap fun i =>
      ([.cache i, .stop i, .rng i, .config i, .mine i, .obj i 0] : List (Var c)).map Act.write : List (MAct P)) = a
  generalize hb : (if rows = 0 then [] else (List.finRange c).flatMap fun i => createActs P i : List (MAct P)) = b
  change RInv _ (by_ none (a ++ b))
  have hwho : ∀ (j : Nat) (e : MEv P), (by_ none (a ++ b))[j]? = some e → e.who = none := by
    intro j e he
    obtain ⟨x, _, rfl⟩ := List.mem_map.mp (List.mem_of_getElem? he)
    rfl
  have hon : ∀ i t y, ¬ (((minitial P k rows file nB prog).cols i).threads t).on y := by
    intro i t y hy
    have : ((minitial P k rows file nB prog).cols i).threads t = if rows = 0 then .done else .head := rfl
    rw [this] at hy
    split at hy <;> rcases hy with ⟨_, hy⟩ | hy <;> cases hy
  refine ⟨raceFree_alone _, ⟨?_, ?_, ?_, ?_, ?_⟩, fun i => ?_, ?_, ?_, ?_, ?_⟩
  · intro j e i t hj he
    rw [hwho j e hj] at he
    cases he
  · exact fun j e i l hj _ _ => .inl (hwho j e hj)
  · exact fun j e i hj _ => hwho j e hj
  · exact fun j e i n hj _ _ => hwho j e hj
  · exact fun _ j e l hj _ _ => hwho j e hj
  · have hok : Ok (minitial P k rows file nB prog) none (fun _ => False) b := by
      have hall : ∀ x ∈ b, ∃ t, x = .create t := by
        intro x hx
        rw [← hb] at hx
        split at hx
        · cases hx
        · obtain ⟨i, _, hx⟩ := List.mem_flatMap.mp hx
          obtain ⟨t, _, rfl⟩ := List.mem_map.mp hx
          exact ⟨_, rfl⟩
      clear hb
      induction b with
      | nil => rfl
      | cons x b ih =>
        obtain ⟨t, rfl⟩ := hall x List.mem_cons_self
        refine ih ?_ fun y hy => hall y (List.mem_cons_of_mem _ hy)
        intro j e he
        obtain ⟨x, _, rfl⟩ := List.mem_map.mp (List.mem_of_getElem? he)
        rfl
    have h0 : ColOK (P := P) [] i 0 :=
      ⟨le_rfl, fun _ _ _ _ h => by simp at h, fun _ _ h => by simp at h, fun _ _ h => by simp at h⟩
    have h1 : ColOK ([] ++ by_ none a) i _ := colOK_float h0
    rw [List.nil_append] at h1
    rw [by_, List.map_append]
    refine ⟨_, colOK_keep h1 hok (fun _ _ => id) id id, fun hbeg t => Epoch.create le_rfl ?_⟩
    have hr : rows ≠ 0 := hbeg
    rw [← hb, if_neg hr]
    exact List.mem_flatMap.mpr ⟨i, List.mem_finRange _, List.mem_map.mpr ⟨t, List.mem_finRange _, rfl⟩⟩
  · refine ⟨(by_ none (a ++ b)).length, ⟨le_rfl, ?_, ?_, ?_⟩, fun i t y x hx => (hon i t y (.inl ⟨x, hx⟩)).elim,
      fun i hi => (hi rfl).elim⟩
    · exact fun j e hj _ => .inl ⟨hwho j e hj, get_lt hj⟩
    · exact fun j e hj _ => .inl ⟨hwho j e hj, get_lt hj⟩
    · exact fun j e hj _ => ⟨hwho j e hj, get_lt hj⟩
  · intro i y it hm
    cases hm
  · exact fun i t y hy => (hon i t y hy).elim
  · intro i y it hm
    cases hm

/-- On every schedule, of any two accesses of different threads to the same variable, one of which writes, one happens
before the other. -/
theorem no_data_race (hn : ∀ i, 0 < (P i).threads) {ls : List (MLabel P)} {S : MState P}
    (e : mrun (minitial P k rows file nB prog) ls = some S) :
    RaceFree (firstEvents P rows ++ mtrace (minitial P k rows file nB prog) ls) := by
  have key : ∀ (ls : List (MLabel P)) (S0 S : MState P) (tr : List (MEv P)), Good k rows file nB prog S0 → RInv S0 tr →
      mrun S0 ls = some S → RaceFree (tr ++ mtrace S0 ls) := by
    intro ls
    induction ls with
    | nil => intro S0 S tr _ h _; simpa [mtrace] using h.free
    | cons l ls ih =>
      intro S0 S tr hg h e
      simp only [mrun] at e
      cases h1 : mstep S0 l with
      | none => rw [h1] at e; cases e
      | some S1 =>
        rw [h1] at e
        have := ih S1 S _ (good_step hn hg h1) (race_step (sound_of hn hg) h h1) e
        simpa [mtrace, h1] using this
  exact key ls _ S _ good_initial first_inv e

/-! ## Calls that race -/

/-- `addColumn` reads the number of blocks without the mutex, dyscostman.cc:391. -/
def addColumnActs (P : (i : Fin c) → Params (W i) K) : List (MAct P) := [.read .nBlocks]

/-- `removeColumn` writes the header without the mutex, dyscostman.cc:405. -/
def removeColumnActs (P : (i : Fin c) → Params (W i) K) : List (MAct P) := headerActs P

theorem encode_writes {S : MState P} {i : Fin c} {t : Fin (P i).threads} {b : Nat} {x : Rows (W i)}
    (ht : (S.cols i).threads t = .encode b x) : Act.write .nBlocks ∈ threadActs P i (S.view i) t ∧
      Act.write .stream ∈ threadActs P i (S.view i) t ∧ Act.create none ∉ threadActs P i (S.view i) t := by
  have ev : (S.view i).threads t = .encode b x := ht
  unfold threadActs
  rw [ev]
  simp

/-- If the client adds a column when an encoder thread just wrote a block, the test of the number of blocks races with
its writing, whatever happened before. -/
theorem addColumn_race {S : MState P} {i : Fin c} {t : Fin (P i).threads} {b : Nat} {x : Rows (W i)}
    (ht : (S.cols i).threads t = .encode b x) (tr : List (MEv P)) :
    ¬ RaceFree (tr ++ events S (.thread i t) ++ by_ none (addColumnActs P)) :=
  race_of (by simp) (encode_writes ht).2.2 (by simp [addColumnActs]) (by simp [addColumnActs]) (encode_writes ht).1
    (.inl (by simp [addColumnActs]))

/-- Likewise if the client removes another column: the header is written to the stream while the thread writes its
block. -/
theorem removeColumn_race {S : MState P} {i : Fin c} {t : Fin (P i).threads} {b : Nat} {x : Rows (W i)}
    (ht : (S.cols i).threads t = .encode b x) (tr : List (MEv P)) :
    ¬ RaceFree (tr ++ events S (.thread i t) ++ by_ none (removeColumnActs P)) :=
  race_of (by simp) (encode_writes ht).2.2 (by simp [removeColumnActs, headerActs]) (by simp [removeColumnActs, headerActs])
    (encode_writes ht).2.1 (.inr (by simp [removeColumnActs, headerActs]))

/-! ## Examples -/

/-- A complete run of two columns, to which `no_data_race` applies; its trace has more than two hundred events. -/
def wholeRun : List (MLabel pair) :=
  [mc, mc, mc, mc, mc, mc, mc, mc, mc, mc, mc, mc, mc, mc, mc, mc, mc, mc, mc, mc, t0, t0, t0,
    mc, t0, t0, t0, mc, t0, mc, mc, mc, mc, t1, t1, t1, mc, t1, t1, t1, mc, t1, mc, mc]

example : ((mrun (minitial pair 0 0 (fun _ _ => none) 0 pairProgram) wholeRun).map fun S => isClosedM S.pc) = some true ∧
    200 < (mtrace (minitial pair 0 0 (fun _ _ => none) 0 pairProgram) wholeRun).length := by
  decide +kernel

/-- The trace of the run. Not in the code. -/
def wholeTrace : List (MEv pair) := mtrace (minitial pair 0 0 (fun _ _ => none) 0 pairProgram) wholeRun

/-- The column of the thread, if it is not the client, if the event writes to the stream. -/
def streamWriter (e : MEv P) : Option (Option Nat) :=
  match e.act with
  | .write .stream => some (e.who.map fun x => x.1.val)
  | _ => none

/-- The client and the threads of both columns write to the stream. -/
example : none ∈ wholeTrace.filterMap streamWriter ∧ some 0 ∈ wholeTrace.filterMap streamWriter ∧
    some 1 ∈ wholeTrace.filterMap streamWriter := by
  decide +kernel

/-- The thread encodes. Not in the code. -/
def isEncode {V : Type} : ThreadPC V → Bool
  | .encode .. => true
  | _ => false

/-- The client is between two calls. Not in the code. -/
def isIdleM : MPC W → Bool
  | .idle => true
  | _ => false

/-- The client is between two calls, and a thread encodes. -/
example : ∃ S, MReachable (minitial pair 0 0 (fun _ _ => none) 0 pairProgram) S ∧
    (isIdleM S.pc, isEncode ((S.cols 0).threads (0 : Fin 1))) = (true, true) :=
  mreachable_of_run (ls := [mc, mc, mc, mc, mc, mc, mc, mc, mc, mc, mc, t0]) (by decide +kernel)

end Dysco.Multi
