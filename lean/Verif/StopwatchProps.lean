import Verif.StopwatchModel
import Mathlib.Tactic.NormNum
import Mathlib.Tactic.Linarith
import Mathlib.Tactic.Ring
import Mathlib.Tactic.FieldSimp
import Mathlib.Algebra.Order.Floor.Ring

/-! # The stopwatch: proofs -/

namespace Dysco.Timer

/-! ## C76: the measured time -/

/-- Whether a stopwatch runs after these calls, if it ran before (`r`): the last call decides. -/
def runsAfter (r : Bool) (l : List (Int × Op)) : Bool :=
  match l.getLast? with
  | none => r
  | some (_, op) => op == .start

/-- The time between the calls of `l`, made after a call at `t`, and `now`, counted where the stopwatch runs. -/
def runTime (r : Bool) (t : Int) : List (Int × Op) → Int → Int
  | [], now => if r then now - t else 0
  | (t', op) :: l, now => (if r then t' - t else 0) + runTime (op == .start) t' l now

/-- The calls after the last reset. -/
def sinceReset : List (Int × Op) → List (Int × Op)
  | [] => []
  | x :: l => if (l.any fun y => y.2 == .reset) then sinceReset l else if x.2 == .reset then l else x :: l

theorem apply_running (now : Int) (w : Watch) (op : Op) : (w.apply now op).running = (op == .start) := by
  cases op <;> cases h : w.running <;> simp [Watch.apply, Watch.start', Watch.pause, Watch.reset, h]

theorem run_running (l : List (Int × Op)) (w : Watch) : (w.run l).running = runsAfter w.running l := by
  induction l generalizing w with
  | nil => rfl
  | cons x l ih =>
    obtain ⟨t, op⟩ := x
    rw [Watch.run, ih, apply_running]
    unfold runsAfter
    cases l with
    | nil => rfl
    | cons y l =>
      rw [List.getLast?_cons_cons]
      cases h : (y :: l).getLast? with
      | none => simp at h
      | some z => rfl

/-- Without a reset. -/
theorem duration_noReset (l : List (Int × Op)) (hl : ∀ x ∈ l, x.2 ≠ .reset) (w : Watch) (t now : Int) :
    (w.run l).duration now = w.duration t + runTime w.running t l now := by
  induction l generalizing w t with
  | nil =>
    obtain ⟨r, st, sm⟩ := w
    cases r <;> simp [Watch.run, runTime, Watch.duration]
    omega
  | cons x l ih =>
    obtain ⟨t', op⟩ := x
    have h1 : op ≠ .reset := hl (t', op) List.mem_cons_self
    rw [Watch.run, ih (fun y hy => hl y (List.mem_cons_of_mem _ hy)) _ t', apply_running, runTime, ← Int.add_assoc]
    congr 1
    cases op with
    | reset => exact absurd rfl h1
    | start =>
      obtain ⟨r, st, sm⟩ := w
      cases r <;> simp [Watch.apply, Watch.start', Watch.duration]
      omega
    | pause =>
      obtain ⟨r, st, sm⟩ := w
      cases r <;> simp [Watch.apply, Watch.pause, Watch.duration]
      omega

/-- The sum and the flag after a reset do not depend on what was before. -/
theorem run_sinceReset (l : List (Int × Op)) (h : l.any fun y => y.2 == .reset) (w : Watch) :
    ∃ w0 : Watch, w0.running = false ∧ w0.sum = 0 ∧ w.run l = w0.run (sinceReset l) := by
  induction l generalizing w with
  | nil => simp at h
  | cons x l ih =>
    obtain ⟨t, op⟩ := x
    simp only [Watch.run, sinceReset]
    by_cases hr : (l.any fun y => y.2 == .reset)
    · rw [if_pos hr]
      exact ih hr _
    · have ho : op = .reset := by
        rw [List.any_cons] at h
        simpa [hr] using h
      subst ho
      rw [if_neg hr, if_pos (by rfl)]
      exact ⟨w.reset, rfl, rfl, rfl⟩

theorem sinceReset_noReset (l : List (Int × Op)) (h : l.any fun y => y.2 == .reset) :
    ∀ x ∈ sinceReset l, x.2 ≠ .reset := by
  induction l with
  | nil => simp at h
  | cons x l ih =>
    simp only [sinceReset]
    by_cases hr : (l.any fun y => y.2 == .reset)
    · rw [if_pos hr]; exact ih hr
    · have ho : x.2 = .reset := by
        rw [List.any_cons] at h
        simpa [hr] using h
      rw [if_neg hr, if_pos (by rw [ho]; rfl)]
      intro y hy hy'
      exact hr (List.any_eq_true.mpr ⟨y, hy, by rw [hy']; rfl⟩)

/-- For every sequence of calls: the stopwatch shows the time, since the last reset (or since its creation),
between the calls after which it was running. Start while running and pause while not running change nothing. -/
theorem measured_time (first : Bool) (t now : Int) (l : List (Int × Op)) :
    ((Watch.newAt first t).run l).duration now =
      if l.any fun y => y.2 == .reset then runTime false t (sinceReset l) now else runTime first t l now := by
  split
  · rename_i h
    obtain ⟨w0, h1, h2, e⟩ := run_sinceReset l h (Watch.newAt first t)
    rw [e, duration_noReset _ (sinceReset_noReset l h) w0 t now, h1]
    simp [Watch.duration, h1, h2]
  · rename_i h
    have hl : ∀ x ∈ l, x.2 ≠ .reset := fun x hx hx' => h (List.any_eq_true.mpr ⟨x, hx, by rw [hx']; rfl⟩)
    rw [duration_noReset l hl _ t now]
    have : (Watch.newAt first t).duration t = 0 := by
      cases first <;> simp [Watch.newAt, Watch.duration]
    rw [this, Int.zero_add]
    rfl

/-- With a clock that does not go back the time is not negative, and it does not decrease until a reset. -/
theorem runTime_nonneg (l : List (Int × Op)) (r : Bool) (t now : Int) (hm : (t :: l.map (·.1) ++ [now]).Pairwise (· ≤ ·)) :
    0 ≤ runTime r t l now := by
  induction l generalizing r t with
  | nil =>
    have := (List.pairwise_cons.mp hm).1 now (by simp)
    simp only [runTime]
    split <;> omega
  | cons x l ih =>
    obtain ⟨t', op⟩ := x
    obtain ⟨h1, h2⟩ := List.pairwise_cons.mp hm
    have := h1 t' (by simp)
    have := ih (op == .start) t' h2
    simp only [runTime]
    split <;> omega

/-- `Seconds` is the shown time in seconds, cut to whole milliseconds. -/
theorem seconds_spec (w : Watch) (now : Int) (h : 0 ≤ w.duration now) :
    w.seconds now ≤ (w.duration now : ℚ) / 1000000 ∧ (w.duration now : ℚ) / 1000000 < w.seconds now + 1 / 1000 ∧
    ∃ k : Int, w.seconds now = k / 1000 := by
  unfold Watch.seconds
  rw [Int.tdiv_eq_ediv_of_nonneg h]
  have h1 := Int.ediv_mul_le (w.duration now) (show (1000 : Int) ≠ 0 by decide)
  have h2 := Int.lt_ediv_add_one_mul_self (w.duration now) (show (0 : Int) < 1000 by decide)
  have h1' : ((w.duration now / 1000 : Int) : ℚ) * 1000 ≤ (w.duration now : ℚ) := by exact_mod_cast h1
  have h2' : (w.duration now : ℚ) < (((w.duration now / 1000 : Int) : ℚ) + 1) * 1000 := by exact_mod_cast h2
  refine ⟨?_, ?_, _, rfl⟩ <;> linarith

/-- A stopwatch as `dscompress` uses it (dscompress.cc:229-261): created running at 10, read at 25, reset and
started at 30, read at 42. -/
example : ((Watch.newAt true 10).run []).duration 25 = 15 ∧
    ((Watch.newAt true 10).run [(30, .reset), (30, .start)]).duration 42 = 12 := by decide

/-- Two intervals: from 0 to 5 and from 7 to 10. -/
example : ((Watch.newAt true 0).run [(3, .start), (5, .pause), (6, .pause), (7, .start)]).duration 10 = 8 := by decide

/-! ## C77: the short text -/

/-- What a text says, in seconds. -/
def unitSeconds : Unit' → ℚ
  | .days | .d => 86400
  | .h => 3600
  | .min | .m => 60
  | .s => 1
  | .ms => 1 / 1000
  | .us => 1 / 1000000
  | .ns => 1 / 1000000000

/-- The number of seconds a text stands for. Not in the code. -/
def meaning (t : Text) : ℚ := (t.map fun x => x.1 * unitSeconds x.2).sum

theorem roundl_near (x : ℚ) : |(roundl x : ℚ) - x| ≤ 1 / 2 := by
  unfold roundl
  split
  · have h1 := Int.floor_le (x + 1 / 2)
    have h2 := Int.lt_floor_add_one (x + 1 / 2)
    rw [abs_le]
    constructor <;> linarith
  · have h1 := Int.le_ceil (x - 1 / 2)
    have h2 := Int.ceil_lt_add_one (x - 1 / 2)
    rw [abs_le]
    constructor <;> linarith

theorem roundl_int (n : Int) : roundl (n : ℚ) = n := by
  unfold roundl
  split
  · rw [Int.floor_eq_iff]
    constructor <;> linarith
  · rw [Int.ceil_eq_iff]
    constructor <;> linarith

/-- Minutes: the text says the time to within half a minute, below ten minutes to within half a second; the
seconds that are shown are below 60. -/
theorem minutes_right (s : ℚ) (hs : 0 ≤ s) :
    |meaning (toMinutes s) - s| ≤ (if (roundl s : ℚ) / 60 < 10 then 1 / 2 else 61 / 2) ∧
    ∀ x ∈ toMinutes s, x.2 = .s → 0 ≤ x.1 ∧ x.1 < 60 := by
  have hr := roundl_near s
  have h0 : (0 : ℚ) ≤ roundl s := by
    have : (0 : Int) ≤ roundl s := by
      unfold roundl
      rw [if_pos hs]
      exact Int.floor_nonneg.mpr (by linarith)
    exact_mod_cast this
  rw [abs_le] at hr
  simp only [toMinutes]
  by_cases h : (10 : ℚ) ≤ (roundl s : ℚ) / 60
  · rw [if_pos h, if_neg (not_lt.mpr h)]
    refine ⟨?_, ?_⟩
    · have hr2 := roundl_near ((roundl s : ℚ) / 60)
      rw [abs_le] at hr2
      simp only [meaning, unitSeconds, List.map_cons, List.map_nil, List.sum_cons, List.sum_nil]
      norm_num
      rw [abs_le]
      constructor <;> linarith
    · intro x hx hu
      rw [List.mem_singleton.mp hx] at hu
      simp at hu
  · rw [if_neg h, if_pos (not_le.mp h)]
    have hm : (roundl s : ℚ) / 60 * 60 = roundl s := by ring
    have hf : fmod ((roundl s : ℚ) / 60 * 60) 60 = roundl s - ⌊(roundl s : ℚ) / 60⌋ * 60 := by
      unfold fmod
      rw [hm, if_pos h0]
    rw [hf]
    have h1 := Int.floor_le ((roundl s : ℚ) / 60)
    have h2 := Int.lt_floor_add_one ((roundl s : ℚ) / 60)
    refine ⟨?_, ?_⟩
    · simp only [meaning, unitSeconds, List.map_cons, List.map_nil, List.sum_cons, List.sum_nil]
      norm_num
      rw [abs_le]
      constructor <;> linarith
    · intro x hx hu
      rcases List.mem_cons.mp hx with rfl | hx
      · simp at hu
      · rw [List.mem_singleton.mp hx]
        constructor <;> simp only <;> linarith

/-- Hours and days: the second number is not what remains but the whole time again, so the text says too much
by the whole hours (days) that it shows. -/
theorem hours_wrong (s : ℚ) (h : (roundl (s / 60) : ℚ) / 60 < 10) :
    meaning (toHours s) = roundl (s / 60) * 60 + ⌊(roundl (s / 60) : ℚ) / 60⌋ * 3600 := by
  simp only [toHours]
  rw [if_neg (not_le.mpr h)]
  simp only [meaning, unitSeconds, List.map_cons, List.map_nil, List.sum_cons, List.sum_nil]
  norm_num
  ring

theorem days_wrong (s : ℚ) (h : (roundl (s / (60 * 60)) : ℚ) / 24 < 10) :
    meaning (toDays s) = roundl (s / (60 * 60)) * 3600 + ⌊(roundl (s / (60 * 60)) : ℚ) / 24⌋ * 86400 := by
  simp only [toDays]
  rw [if_neg (not_le.mpr h)]
  simp only [meaning, unitSeconds, List.map_cons, List.map_nil, List.sum_cons, List.sum_nil]
  norm_num
  ring

/-- One and a half hours are shown as "1h90m". -/
theorem short_wrong : toShort 5400 = [(1, .h), (90, .m)] := by
  have h1 : roundl (5400 / 60) = 90 := by
    rw [show (5400 / 60 : ℚ) = ((90 : Int) : ℚ) by norm_num]; exact roundl_int 90
  have h2 : ⌊((90 : Int) : ℚ) / 60⌋ = 1 := by
    rw [Int.floor_eq_iff]; norm_num
  unfold toShort
  norm_num
  unfold toHours
  simp only [h1, h2]
  norm_num

/-- Seconds and below: the text says the time to within half of the unit, below ten units to within a twentieth. -/
theorem scaled_right (scale : ℚ) (hs : 0 < scale) (u : Unit') (hu : unitSeconds u = 1 / scale) (s : ℚ) :
    |meaning (toScaled scale u s) - s| ≤
      (if (roundl (s * (scale * 10)) : ℚ) / 10 < 10 then 1 / 20 else 1 / 2) / scale := by
  have key : ∀ x e : ℚ, |x - s * scale| ≤ e → |meaning [(x, u)] - s| ≤ e / scale := by
    intro x e he
    have : meaning [(x, u)] - s = (x - s * scale) / scale := by
      simp only [meaning, List.map_cons, List.map_nil, List.sum_cons, List.sum_nil, hu]
      field_simp
      ring
    rw [this, abs_div, abs_of_pos hs]
    gcongr
  simp only [toScaled]
  by_cases h : (10 : ℚ) ≤ (roundl (s * (scale * 10)) : ℚ) / 10
  · rw [if_pos h, if_neg (not_lt.mpr h)]
    exact key _ _ (roundl_near _)
  · rw [if_neg h, if_pos (not_le.mp h)]
    refine key _ _ ?_
    have hr := roundl_near (s * (scale * 10))
    rw [abs_le] at hr ⊢
    constructor <;> linarith

/-- The time of the text functions is in whole milliseconds: anything below one millisecond is shown as
nothing, in nanoseconds, and the microseconds are never chosen for a time that is not negative. -/
theorem below_millisecond (w : Watch) (now : Int) (h0 : 0 ≤ w.duration now) (h1 : w.duration now < 1000) :
    toShort (w.seconds now) = [(0, .ns)] := by
  have hs : w.seconds now = 0 := by
    unfold Watch.seconds
    rw [Int.tdiv_eq_ediv_of_nonneg h0, Int.ediv_eq_zero_of_lt h0 h1]
    norm_num
  rw [hs]
  have hr : roundl 0 = 0 := by exact_mod_cast roundl_int 0
  unfold toShort
  norm_num
  unfold toScaled
  norm_num [hr]

theorem no_microseconds (w : Watch) (now : Int) (h0 : 0 ≤ w.duration now) :
    ∀ x ∈ toShort (w.seconds now), x.2 ≠ .us := by
  have hk : ∃ k : ℕ, w.seconds now = (k : ℚ) / 1000 := by
    refine ⟨((w.duration now).tdiv 1000).toNat, ?_⟩
    unfold Watch.seconds
    have : (0 : Int) ≤ (w.duration now).tdiv 1000 := Int.tdiv_nonneg h0 (by decide)
    have e : (((w.duration now).tdiv 1000).toNat : Int) = (w.duration now).tdiv 1000 := Int.toNat_of_nonneg this
    rw [← Int.cast_natCast, e]
  obtain ⟨k, hk⟩ := hk
  rw [hk]
  have hsc : ∀ (sc : ℚ) (u : Unit') (s : ℚ), ∀ x ∈ toScaled sc u s, x.2 = u := by
    intro sc u s x hx
    simp only [toScaled] at hx
    split at hx <;> rw [List.mem_singleton.mp hx]
  intro x hx
  unfold toShort at hx
  split at hx
  · simp only [toDays] at hx
    split at hx <;> simp at hx
    · rw [hx]; simp
    · rcases hx with rfl | rfl <;> simp
  · split at hx
    · simp only [toHours] at hx
      split at hx <;> simp at hx
      · rw [hx]; simp
      · rcases hx with rfl | rfl <;> simp
    · split at hx
      · simp only [toMinutes] at hx
        split at hx <;> simp at hx
        · rw [hx]; simp
        · rcases hx with rfl | rfl <;> simp
      · split at hx
        · rw [hsc _ _ _ _ hx]; simp
        · split at hx
          · rw [hsc _ _ _ _ hx]; simp
          · split at hx
            · rename_i h1 h2
              exfalso
              rcases Nat.eq_zero_or_pos k with rfl | hp
              · norm_num at h2
              · apply h1
                have : (1 : ℚ) ≤ k := by exact_mod_cast hp
                linarith
            · rw [hsc _ _ _ _ hx]; simp

/-- The unit with which the text begins follows from the time. -/
theorem short_unit (s : ℚ) :
    ∃ x rest, toShort s = x :: rest ∧
      (86400 ≤ s → x.2 = .days ∨ x.2 = .d) ∧
      (3600 ≤ s → s < 86400 → x.2 = .h) ∧
      (60 ≤ s → s < 3600 → x.2 = .min ∨ x.2 = .m) ∧
      (1 ≤ s → s < 60 → x.2 = .s ∧ rest = []) ∧
      (1 / 1000 ≤ s → s < 1 → x.2 = .ms ∧ rest = []) := by
  have hsc : ∀ (sc : ℚ) (u : Unit') (s : ℚ), ∃ x, toScaled sc u s = [(x, u)] := by
    intro sc u s
    simp only [toScaled]
    split <;> exact ⟨_, rfl⟩
  unfold toShort
  split
  · simp only [toDays]
    split <;> refine ⟨_, _, rfl, ?_, ?_, ?_, ?_, ?_⟩ <;> intros <;> first | (exfalso; linarith) | simp
  · split
    · simp only [toHours]
      split <;> refine ⟨_, _, rfl, ?_, ?_, ?_, ?_, ?_⟩ <;> intros <;> first | (exfalso; linarith) | simp
    · split
      · simp only [toMinutes]
        split <;> refine ⟨_, _, rfl, ?_, ?_, ?_, ?_, ?_⟩ <;> intros <;> first | (exfalso; linarith) | simp
      · split
        · obtain ⟨x, e⟩ := hsc 1 .s s
          refine ⟨_, _, e, ?_, ?_, ?_, ?_, ?_⟩ <;> intros <;> first | (exfalso; linarith) | simp
        · split
          · obtain ⟨x, e⟩ := hsc 1000 .ms s
            refine ⟨_, _, e, ?_, ?_, ?_, ?_, ?_⟩ <;> intros <;> first | (exfalso; linarith) | simp
          · obtain ⟨y, rest, e⟩ : ∃ y rest, (if 1 / 1000000 ≤ s then toScaled 1000000 .us s
                else toScaled 1000000000 .ns s) = y :: rest := by
              split
              · obtain ⟨x, e⟩ := hsc 1000000 .us s
                exact ⟨_, _, e⟩
              · obtain ⟨x, e⟩ := hsc 1000000000 .ns s
                exact ⟨_, _, e⟩
            refine ⟨_, _, e, ?_, ?_, ?_, ?_, ?_⟩ <;> intros <;> exfalso <;> linarith

/-- Below an hour the text says the time to within half of the unit: half a minute and half a second, half a
second, half a millisecond. -/
theorem short_right (s : ℚ) (h1 : 1 / 1000 ≤ s) (h2 : s < 3600) :
    |meaning (toShort s) - s| ≤ if 60 ≤ s then 61 / 2 else if 1 ≤ s then 1 / 2 else 1 / 2000 := by
  unfold toShort
  rw [if_neg (by linarith), if_neg (by linarith)]
  split
  · refine le_trans (minutes_right s (by linarith)).1 ?_
    split <;> norm_num
  · split
    · refine le_trans (scaled_right 1 one_pos .s (by norm_num [unitSeconds]) s) ?_
      split <;> norm_num
    · refine le_trans (scaled_right 1000 (by norm_num) .ms (by norm_num [unitSeconds]) s) ?_
      split <;> norm_num

/-- The text for 75.4 s: "1m15s". -/
example : toShort (377 / 5) = [(1, .m), (15, .s)] := by
  have h1 : roundl (377 / 5) = 75 := by
    unfold roundl
    rw [if_pos (by norm_num), Int.floor_eq_iff]
    norm_num
  have h2 : ⌊((75 : Int) : ℚ) / 60⌋ = 1 := by
    rw [Int.floor_eq_iff]; norm_num
  unfold toShort
  norm_num
  unfold toMinutes
  simp only [h1, h2]
  norm_num [fmod]

end Dysco.Timer
