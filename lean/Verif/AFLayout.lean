import Verif.AFFit
import Verif.FloatBits

/-!
# What the antenna-frequency encoder writes, for any rounding

The encoder never leaves its buffers, and the metadata does not depend on what the metadata buffer held
before. Termination is not needed here: the statements are about runs that end.
-/

namespace Dysco

theorem Option.rel_bind {α β γ δ : Type} {R : α → β → Prop} {S : γ → δ → Prop} {x : Option α}
    {y : Option β} {f : α → Option γ} {g : β → Option δ} (h : Option.Rel R x y)
    (hf : ∀ a b, R a b → Option.Rel S (f a) (g b)) : Option.Rel S (x.bind f) (y.bind g) := by
  cases h with
  | none => exact .none
  | some h => exact hf _ _ h

theorem Option.rel_map {α β γ δ : Type} {R : α → β → Prop} {S : γ → δ → Prop} {x : Option α}
    {y : Option β} {f : α → γ} {g : β → δ} (h : Option.Rel R x y)
    (hf : ∀ a b, R a b → S (f a) (g b)) : Option.Rel S (x.map f) (y.map g) := by
  cases h with
  | none => exact .none
  | some h => exact .some (hf _ _ h)

theorem Option.rel_same {α : Type} (x : Option α) : Option.Rel (fun a b => a = b ∧ x = some a) x x := by
  cases x with
  | none => exact .none
  | some a => exact .some ⟨rfl, rfl⟩

/-- Two loops with related bodies have related results. -/
theorem forRange_rel {σ τ : Type} (n : Nat) (b1 : Nat → σ → Option σ) (b2 : Nat → τ → Option τ)
    (R : Nat → σ → τ → Prop) {s : σ} {t : τ} (h0 : R 0 s t)
    (hs : ∀ i s t, i < n → R i s t → Option.Rel (R (i + 1)) (b1 i s) (b2 i t)) :
    Option.Rel (R n) (forRange n b1 s) (forRange n b2 t) := by
  induction n with
  | zero => exact .some h0
  | succ n ih =>
    unfold forRange
    exact Option.rel_bind (ih (fun i s t hi => hs i s t (by omega))) (fun a b => hs n a b (by omega))

theorem Buf.rel_wr {α : Type} {b1 b2 : Buf α} (hl : b1.len = b2.len) (i : Nat) (x : α) :
    Option.Rel (fun c1 c2 => c1.len = b1.len ∧ c2.len = b2.len ∧
      ∀ j, (j = i ∨ b1.get j = b2.get j) → c1.get j = c2.get j) (b1.wr i x) (b2.wr i x) := by
  unfold Buf.wr
  rw [← hl]
  split
  · refine .some ⟨rfl, by simp, ?_⟩
    intro j hj
    simp only
    split
    · rfl
    · rcases hj with h | h
      · contradiction
      · exact h
  · exact .none

theorem doWhile_partial {σ : Type} (body : σ → Option (σ × Bool)) (J : σ → Prop)
    (h : ∀ s, J s → ∃ r, body s = some r ∧ J r.1) (fuel : Nat) {s : σ} (hs : J s) :
    doWhile body fuel s = some none ∨ ∃ s', doWhile body fuel s = some (some s') ∧ J s' := by
  induction fuel generalizing s with
  | zero => exact Or.inl rfl
  | succ n ih =>
    obtain ⟨r, e, hr⟩ := h s hs
    unfold doWhile
    rw [e, Option.bind_some]
    split
    · exact ih hr
    · exact Or.inr ⟨r.1, rfl, hr⟩

/-- The samples determine the symbols. -/
theorem TimeBlock.quantise_unique {n nR : Nat} {enc : Fl → Nat → Option Nat} {dith : Nat → Nat}
    {x y : Nat → Nat → Fl} {s1 s2 : Buf Nat}
    (h1 : ∀ r i, r < nR → i < n → enc (x r i) (dith ((r * n + i) * 2)) = some (s1.get ((r * n + i) * 2)) ∧
      enc (y r i) (dith ((r * n + i) * 2 + 1)) = some (s1.get ((r * n + i) * 2 + 1)))
    (h2 : ∀ r i, r < nR → i < n → enc (x r i) (dith ((r * n + i) * 2)) = some (s2.get ((r * n + i) * 2)) ∧
      enc (y r i) (dith ((r * n + i) * 2 + 1)) = some (s2.get ((r * n + i) * 2 + 1))) :
    ∀ j, j < nR * n * 2 → s1.get j = s2.get j := by
  intro j hj
  have hn : 0 < n := Nat.pos_of_ne_zero (by rintro rfl; simp at hj)
  have hr : j / 2 / n < nR := by
    rw [Nat.div_lt_iff_lt_mul hn]
    omega
  have hi : j / 2 % n < n := Nat.mod_lt _ hn
  have hflat : j / 2 / n * n + j / 2 % n = j / 2 := by
    rw [Nat.mul_comm]; exact Nat.div_add_mod _ _
  obtain ⟨a1, a2⟩ := h1 _ _ hr hi
  obtain ⟨b1, b2⟩ := h2 _ _ hr hi
  rw [hflat] at a1 a2 b1 b2
  rcases Nat.mod_two_eq_zero_or_one j with h | h
  · have : j / 2 * 2 = j := by omega
    rw [this] at a1 b1
    rw [a1] at b1
    exact Option.some.inj b1
  · have : j / 2 * 2 + 1 = j := by omega
    rw [this] at a2 b2
    rw [a2] at b2
    exact Option.some.inj b2

namespace AF
open TimeBlock

variable {nR nPol nCh nAnt : Nat} {A : Nat → Nat × Nat} {D : Nat → Nat → Cx} {data : Block Cx}

/-! ## The normalisation does not depend on the old metadata -/

/-- Same data, same length, and equal metadata except for some entries below `lim`. -/
def Alike (len lim : Nat) (W : Nat → Prop) (s t : Block Cx × Buf Fl) : Prop :=
  s.1 = t.1 ∧ s.2.len = len ∧ t.2.len = len ∧ ∀ j, (W j ∨ lim ≤ j) → s.2.get j = t.2.get j

theorem normalizeChannels_rel {RF RD : ℚ → Fl} {sq : Fl → Fl} {n len lim : Nat}
    (meas : Buf (Nat × Fl)) {s t : Block Cx × Buf Fl} (h : Alike len lim (fun _ => False) s t)
    (hrows : 0 < s.1.len) :
    Option.Rel (Alike len lim (fun j => j < n)) (normalizeChannels RF RD sq n meas s)
      (normalizeChannels RF RD sq n meas t) := by
  unfold normalizeChannels
  rw [← h.1]
  have hmain := forRange_rel s.1.len (fun r st =>
    forRange n (fun i (st : Block Cx × Buf Fl) =>
      (meas.rd i).bind fun m =>
      (updVis st.1 r i (divRms RD (rms RD sq m))).bind fun data =>
      (st.2.wr i (Fl.cast RF (rms RD sq m))).map fun metaB => (data, metaB)) st) (fun r st =>
    forRange n (fun i (st : Block Cx × Buf Fl) =>
      (meas.rd i).bind fun m =>
      (updVis st.1 r i (divRms RD (rms RD sq m))).bind fun data =>
      (st.2.wr i (Fl.cast RF (rms RD sq m))).map fun metaB => (data, metaB)) st)
    (fun k => Alike len lim (fun j => 0 < k ∧ j < n)) (s := s) (t := t)
    ⟨h.1, h.2.1, h.2.2.1, fun j hj => h.2.2.2 j (by omega)⟩ (by
      intro r s t _ h
      have := forRange_rel n (fun i (st : Block Cx × Buf Fl) =>
          (meas.rd i).bind fun m =>
          (updVis st.1 r i (divRms RD (rms RD sq m))).bind fun data =>
          (st.2.wr i (Fl.cast RF (rms RD sq m))).map fun metaB => (data, metaB))
        (fun i (st : Block Cx × Buf Fl) =>
          (meas.rd i).bind fun m =>
          (updVis st.1 r i (divRms RD (rms RD sq m))).bind fun data =>
          (st.2.wr i (Fl.cast RF (rms RD sq m))).map fun metaB => (data, metaB))
        (fun i => Alike len lim (fun j => j < i)) (s := s) (t := t)
        ⟨h.1, h.2.1, h.2.2.1, fun j hj => h.2.2.2 j (by omega)⟩ (by
          intro i s t _ h
          refine Option.rel_bind (Option.rel_same (meas.rd i)) ?_
          rintro m _ ⟨rfl, _⟩
          rw [← h.1]
          refine Option.rel_bind (Option.rel_same (updVis s.1 r i _)) ?_
          rintro d _ ⟨rfl, _⟩
          have hw := Buf.rel_wr (b1 := s.2) (b2 := t.2) (by rw [h.2.1, h.2.2.1]) i
            (Fl.cast RF (rms RD sq m))
          refine Option.rel_map hw ?_
          rintro b1 b2 ⟨l1, l2, hg⟩
          refine ⟨rfl, by rw [l1, h.2.1], by rw [l2, h.2.2.1], ?_⟩
          intro j hj
          apply hg
          rcases hj with hj | hj
          · rcases Nat.lt_or_eq_of_le (Nat.le_of_lt_succ hj) with hj | hj
            · exact Or.inr (h.2.2.2 j (Or.inl hj))
            · exact Or.inl hj
          · exact Or.inr (h.2.2.2 j (Or.inr hj)))
      revert this
      generalize forRange n _ s = x
      generalize forRange n _ t = y
      intro h
      cases h with
      | none => exact .none
      | some h => exact .some ⟨h.1, h.2.1, h.2.2.1, fun j hj => h.2.2.2 j (by omega)⟩)
  revert hmain
  generalize forRange s.1.len _ s = x
  generalize forRange s.1.len _ t = y
  intro h
  cases h with
  | none => exact .none
  | some h => exact .some ⟨h.1, h.2.1, h.2.2.1, fun j hj => h.2.2.2 j (by
      rcases hj with hj | hj
      · exact Or.inl ⟨hrows, hj⟩
      · exact Or.inr hj)⟩

theorem normalizeAntennas_rel {RF RD : ℚ → Fl} {sq : Fl → Fl} {len lim p : Nat}
    {s t : Block Cx × Buf Fl} (h : Alike len lim (fun j => j < nPol * nCh + nAnt * p) s t) :
    Option.Rel (Alike len lim (fun j => j < nPol * nCh + nAnt * (p + 1)))
      (normalizeAntennas RF RD sq nPol nCh nAnt p s) (normalizeAntennas RF RD sq nPol nCh nAnt p t) := by
  unfold normalizeAntennas
  rw [← h.1]
  refine Option.rel_bind (Option.rel_same _) ?_
  rintro ant _ ⟨rfl, _⟩
  refine Option.rel_bind (Option.rel_same _) ?_
  rintro d _ ⟨rfl, _⟩
  refine Option.rel_map (forRange_rel nAnt _ _ (fun a b1 b2 => b1.len = len ∧ b2.len = len ∧
    ∀ j, (j < nPol * nCh + (nAnt * p + a) ∨ lim ≤ j) → b1.get j = b2.get j)
    ⟨h.2.1, h.2.2.1, fun j hj => h.2.2.2 j (by omega)⟩ ?_) ?_
  · rintro a b1 b2 _ ⟨h1, h2, h3⟩
    refine Option.rel_bind (Option.rel_same _) ?_
    rintro x _ ⟨rfl, _⟩
    have hw := Buf.rel_wr (b1 := b1) (b2 := b2) (by rw [h1, h2]) (nPol * nCh + (nAnt * p + a))
      (Fl.cast RF x)
    revert hw
    generalize b1.wr _ _ = x
    generalize b2.wr _ _ = y
    intro hw
    cases hw with
    | none => exact .none
    | some hw =>
      refine .some ⟨by rw [hw.1, h1], by rw [hw.2.1, h2], fun j hj => hw.2.2 j ?_⟩
      by_cases hja : j = nPol * nCh + (nAnt * p + a)
      · exact Or.inl hja
      · exact Or.inr (h3 j (by omega))
  · rintro b1 b2 ⟨h1, h2, h3⟩
    refine ⟨rfl, h1, h2, fun j hj => h3 j ?_⟩
    simp only [Nat.mul_add, Nat.mul_one] at hj
    omega

/-- The normalisation gives the same result for all old contents of the announced metadata entries. -/
theorem normalize_indep {RF RD : ℚ → Fl} {sq : Fl → Fl} (hrows : 0 < data.len) (m1 m2 : Buf Fl)
    (hl : m1.len = m2.len)
    (hg : ∀ j, nPol * nCh + nAnt * nPol ≤ j → m1.get j = m2.get j) :
    normalize RF RD sq nPol nCh nAnt (data, m1) = normalize RF RD sq nPol nCh nAnt (data, m2) := by
  have : Option.Rel (Alike m1.len (nPol * nCh + nAnt * nPol)
      (fun j => j < nPol * nCh + nAnt * nPol)) (normalize RF RD sq nPol nCh nAnt (data, m1))
      (normalize RF RD sq nPol nCh nAnt (data, m2)) := by
    unfold normalize
    refine Option.rel_bind (Option.rel_same _) ?_
    rintro meas _ ⟨rfl, _⟩
    refine Option.rel_bind (normalizeChannels_rel (len := m1.len) (lim := nPol * nCh + nAnt * nPol)
      meas ⟨rfl, rfl, hl.symm, fun j hj => hg j (hj.resolve_left id)⟩ hrows) ?_
    intro s t h
    refine forRange_rel nPol _ _ (fun p => Alike m1.len (nPol * nCh + nAnt * nPol)
      (fun j => j < nPol * nCh + nAnt * p)) ⟨h.1, h.2.1, h.2.2.1, fun j hj => h.2.2.2 j (by omega)⟩ ?_
    intro p s t _ h
    exact normalizeAntennas_rel h
  revert this
  generalize normalize RF RD sq nPol nCh nAnt (data, m1) = x
  generalize normalize RF RD sq nPol nCh nAnt (data, m2) = y
  intro h
  cases h with
  | none => rfl
  | @some s t h =>
    obtain ⟨h1, h2, h3, h4⟩ := h
    obtain ⟨d1, b1⟩ := s
    obtain ⟨d2, b2⟩ := t
    obtain ⟨l1, g1⟩ := b1
    obtain ⟨l2, g2⟩ := b2
    simp only at h1 h2 h3 h4
    have : g1 = g2 := funext fun j => h4 j (by omega)
    rw [h1, h2, h3, this]

/-! ## No access outside the buffers -/

theorem rmsIterate_some {RD : ℚ → Fl} {mat : Nat → Nat → Option Fl}
    (hM : ∀ i j, i < nAnt → j < nAnt → ∃ x, mat i j = some x) {st : RmsState}
    (ha : st.ant.len = nAnt) :
    ∃ st', rmsIterate RD nAnt mat st = some st' ∧ st'.ant.len = nAnt := by
  have hsums : ∀ i, i < nAnt → ∃ s, nextSums RD nAnt mat st.ant i = some s := by
    intro i hi
    obtain ⟨s, e, _⟩ := forRange_inv nAnt (fun j (s : Fl × Fl) => (st.ant.rd j).bind fun w =>
      if i ≠ j ∧ Fl.eq w (.fin 0) = false then
        (mat i j).map fun x => if x.isFinite then (Fl.add RD s.1 x, Fl.add RD s.2 w) else s
      else some s) (.fin 0, .fin 0) (fun _ _ => True) trivial (by
        rintro j s hj _
        rw [Buf.rd_some (by omega), Option.bind_some]
        split
        · obtain ⟨x, ex⟩ := hM i j hi hj
          rw [ex]
          exact ⟨_, rfl, trivial⟩
        · exact ⟨s, rfl, trivial⟩)
    exact ⟨s, e⟩
  obtain ⟨next, e1, n1⟩ := forRange_inv nAnt
    (fun i (next : Buf Fl) => (nextSums RD nAnt mat st.ant i).bind fun s =>
      next.wr i (nextRms RD s)) ⟨nAnt, fun _ => .fin 0⟩ (fun _ b => b.len = nAnt) rfl (by
      rintro i b hi h1
      obtain ⟨s, es⟩ := hsums i hi
      rw [es, Option.bind_some, Buf.wr_some (by omega)]
      exact ⟨_, rfl, h1⟩)
  obtain ⟨s, e2, n2⟩ := forRange_inv nAnt
    (fun i (s : Buf Fl × Fl) => (next.rd i).bind fun x => (s.1.rd i).bind fun old =>
      (s.1.wr i (Fl.add RD (Fl.mul RD x (RD (4 / 5))) (Fl.mul RD old (RD (1 / 5))))).map fun ant =>
        (ant, Fl.stdMax (Fl.add RD (Fl.mul RD x (RD (4 / 5))) (Fl.mul RD old (RD (1 / 5)))) s.2))
    (st.ant, .fin 0) (fun _ s => s.1.len = nAnt) ha (by
      rintro i s hi h1
      rw [Buf.rd_some (by omega), Option.bind_some, Buf.rd_some (by omega),
        Option.bind_some, Buf.wr_some (by omega)]
      exact ⟨_, rfl, h1⟩)
  obtain ⟨t, e3, n3⟩ := forRange_inv nAnt
    (fun i (t : RmsState) => (t.ant.rd i).bind fun x => (next.rd i).bind fun nx =>
      (t.ant.wr i (if Fl.lt x (Fl.mul RD s.2 (RD (1 / 100000))) then .fin 0 else x)).map
        fun ant => (⟨ant, Fl.stdMax t.precision (Fl.div RD (Fl.abs (Fl.sub RD
          (if Fl.lt x (Fl.mul RD s.2 (RD (1 / 100000))) then .fin 0 else x) nx)) s.2)⟩
          : RmsState))
    ⟨s.1, .fin 0⟩ (fun _ t => t.ant.len = nAnt) n2 (by
      rintro i t hi h1
      rw [Buf.rd_some (by omega), Option.bind_some, Buf.rd_some (by omega),
        Option.bind_some, Buf.wr_some (by omega)]
      exact ⟨_, rfl, h1⟩)
  refine ⟨t, ?_, n3⟩
  unfold rmsIterate
  rw [e1, Option.bind_some, e2, Option.bind_some]
  exact e3

theorem antennaRms_some {RD : ℚ → Fl} {sq : Fl → Fl} (h : Holds nR (nPol * nCh) A D data)
    (hA : AntennasBelow nR nAnt A) {p : Nat} (hp : p < nPol) :
    ∃ ant, antennaRms RD sq nPol nCh nAnt p data = some ant ∧ ant.len = nAnt := by
  obtain ⟨meas, e1, l1, _⟩ := baselineMeas_spec (RD := RD) (P := fun _ => True) trivial
    (fun _ _ _ => trivial) h hA hp
  have hM : ∀ i j, i < nAnt → j < nAnt → ∃ x, rmsMatrix RD sq nAnt meas i j = some x := by
    intro i j hi hj
    have hidx := baselineIndex_lt hi hj
    unfold rmsMatrix
    rw [Buf.rd_some (by omega)]
    exact ⟨_, rfl⟩
  obtain ⟨st, e2, h2⟩ := forRange_inv 100 (fun _ (st : RmsState) =>
    if Fl.lt (RD (1 / 1000000)) st.precision then rmsIterate RD nAnt (rmsMatrix RD sq nAnt meas) st
    else some st) ⟨⟨nAnt, fun _ => .fin 1⟩, .fin 1⟩ (fun _ st => st.ant.len = nAnt) rfl (by
      intro _ st _ h1
      split
      · exact rmsIterate_some hM h1
      · exact ⟨st, rfl, h1⟩)
  refine ⟨st.ant, ?_, h2⟩
  unfold antennaRms
  rw [e1, Option.bind_some, e2]
  rfl

/-- The state of the encoder between its steps. -/
def Fine (nR nPol nCh nAnt : Nat) (A : Nat → Nat × Nat) (len : Nat) (st : Block Cx × Buf Fl) : Prop :=
  (∃ D, Holds nR (nPol * nCh) A D st.1) ∧ st.2.len = len ∧
    ∀ j, j < nPol * nCh + nAnt * nPol → Fl.IsFloat (st.2.get j)

theorem normalize_some {RD : ℚ → Fl} {sq : Fl → Fl} (h : Holds nR (nPol * nCh) A D data)
    (hA : AntennasBelow nR nAnt A) (hR : 0 < nR) (metaB : Buf Fl)
    (hb : nPol * nCh + nAnt * nPol ≤ metaB.len) :
    ∃ st, normalize Fl.r32 RD sq nPol nCh nAnt (data, metaB) = some st ∧
      Fine nR nPol nCh nAnt A metaB.len st := by
  obtain ⟨meas, e1, l1, _⟩ := channelMeas_spec (RD := RD) h
  obtain ⟨D1, data1, meta1, e2, h1, _, h3, h4, _⟩ := normalizeChannels_spec (RF := Fl.r32) (RD := RD)
    (sq := sq) h meas l1 metaB (by omega)
  obtain ⟨st, e3, ⟨D2, k1⟩, k2, k3⟩ := forRange_inv nPol
    (fun p st => normalizeAntennas Fl.r32 RD sq nPol nCh nAnt p st) (data1, meta1)
    (fun p st => (∃ D, Holds nR (nPol * nCh) A D st.1) ∧ st.2.len = metaB.len ∧
      ∀ j, j < nPol * nCh + nAnt * p → Fl.IsFloat (st.2.get j))
    ⟨⟨D1, h1⟩, h3, fun j hj => by rw [h4 j hR (by omega)]; exact Fl.isFloat_cast _⟩ (by
      rintro p ⟨d, m⟩ hp ⟨⟨D', g1⟩, g2, g3⟩
      obtain ⟨ant, ea, la⟩ := antennaRms_some (RD := RD) (sq := sq) g1 hA hp
      simp only at g1 g2 g3
      obtain ⟨D2, d2, m2, e, f1, _, _, f4, f5, f6⟩ := normalizeAntennas_spec (RF := Fl.r32) g1 hA hp la ea m
        (by omega)
      refine ⟨_, e, ⟨D2, f1⟩, by rw [← g2]; exact f4, ?_⟩
      intro j hj
      by_cases hjl : j < nPol * nCh + nAnt * p
      · rw [f6 j (fun a _ => by omega)]
        exact g3 j hjl
      · rw [Nat.mul_add, Nat.mul_one] at hj
        obtain ⟨a, rfl⟩ : ∃ a, j = nPol * nCh + (nAnt * p + a) := ⟨j - (nPol * nCh + nAnt * p), by omega⟩
        rw [f5 a (by omega)]
        exact Fl.isFloat_cast _)
  refine ⟨st, ?_, ⟨D2, k1⟩, k2, k3⟩
  unfold normalize
  rw [e1, Option.bind_some, e2, Option.bind_some]
  exact e3

theorem changeChannel_fine {RD : ℚ → Fl} {len : Nat} (hb : nPol * nCh + nAnt * nPol ≤ len)
    {st : Block Cx × Buf Fl} (h : Fine nR nPol nCh nAnt A len st) {i : Nat} (hi : i < nPol * nCh) (f : Fl) :
    ∃ st', changeChannel Fl.r32 RD st i f = some st' ∧ Fine nR nPol nCh nAnt A len st' := by
  obtain ⟨data, metaB⟩ := st
  obtain ⟨⟨D, h1⟩, h2, h3⟩ := h
  simp only at h1 h2 h3
  obtain ⟨D', data', e, g1, _⟩ := changeChannel_spec (RF := Fl.r32) (RD := RD) h1 metaB hi (by omega) f
  refine ⟨_, e, ⟨D', g1⟩, h2, ?_⟩
  intro j hj
  simp only
  split
  · exact Fl.isFloat_cast _
  · exact h3 j hj

theorem changeAntenna_fine {RD : ℚ → Fl} {len : Nat} (hb : nPol * nCh + nAnt * nPol ≤ len)
    {st : Block Cx × Buf Fl} (h : Fine nR nPol nCh nAnt A len st) {a p : Nat} (ha : a < nAnt)
    (hp : p < nPol) (f : Fl) :
    ∃ st', changeAntenna Fl.r32 RD nPol nCh nAnt st a p f = some st' ∧
      Fine nR nPol nCh nAnt A len st' := by
  obtain ⟨data, metaB⟩ := st
  obtain ⟨⟨D, h1⟩, h2, h3⟩ := h
  simp only at h1 h2 h3
  obtain ⟨D', data', e, g1, _⟩ := changeAntenna_spec (RF := Fl.r32) (RD := RD) h1 metaB ha hp
    (by omega) f
  refine ⟨_, e, ⟨D', g1⟩, h2, ?_⟩
  intro j hj
  simp only
  split
  · exact Fl.isFloat_cast _
  · exact h3 j hj

theorem fitStep_fine {RD : ℚ → Fl} {maxLevel : Fl} {len : Nat}
    (hb : nPol * nCh + nAnt * nPol ≤ len) (hc : 0 < nCh) (hA : AntennasBelow nR nAnt A) {p : Nat}
    (hp : p < nPol) {st : Block Cx × Buf Fl} (h : Fine nR nPol nCh nAnt A len st) :
    ∃ r, fitStep Fl.r32 RD nPol nCh nAnt p maxLevel st = some r ∧ Fine nR nPol nCh nAnt A len r.1 := by
  obtain ⟨data, metaB⟩ := st
  obtain ⟨⟨D, h1⟩, h2, h3⟩ := id h
  rcases fitStep_spec (RF := Fl.r32) (RD := RD) (maxLevel := maxLevel) hc h1 hA hp metaB with
    e | ⟨a, M, ha, _, _, e⟩ | ⟨c, f, hcc, _, _, e⟩
  · exact ⟨_, e, h⟩
  · obtain ⟨st', e', hf⟩ := changeAntenna_fine (RD := RD) hb h ha hp (antennaFactor RD maxLevel (.fin M))
    rw [e, e']
    exact ⟨_, rfl, hf⟩
  · obtain ⟨st', e', hf⟩ := changeChannel_fine (RD := RD) hb h (chan_lt hcc hp) f
    rw [e, e']
    exact ⟨_, rfl, hf⟩

theorem fitToMaximum_fine {RD : ℚ → Fl} {maxLevel : Fl} {len : Nat}
    (hb : nPol * nCh + nAnt * nPol ≤ len) (hc : 0 < nCh) (hA : AntennasBelow nR nAnt A) (fuel : Nat)
    {st : Block Cx × Buf Fl} (h : Fine nR nPol nCh nAnt A len st) :
    fitToMaximum Fl.r32 RD nPol nCh nAnt maxLevel fuel st = some none ∨
      ∃ st', fitToMaximum Fl.r32 RD nPol nCh nAnt maxLevel fuel st = some (some st') ∧
        Fine nR nPol nCh nAnt A len st' := by
  obtain ⟨st1, e1, h1⟩ := forRange_inv (nPol * nCh) (fun i st => (crossMax st.1 i).bind fun mx =>
    changeChannel Fl.r32 RD st i (firstFactor RD maxLevel mx)) st
    (fun _ st => Fine nR nPol nCh nAnt A len st) h (by
      intro i st hi h
      obtain ⟨⟨D, h1⟩, _⟩ := id h
      obtain ⟨M, e, _⟩ := crossMax_spec h1 hi
      rw [e, Option.bind_some]
      exact changeChannel_fine hb h hi _)
  have hpols : ∀ p, p ≤ nPol → fitPols Fl.r32 RD nPol nCh nAnt maxLevel fuel p st1 = some none ∨
      ∃ st', fitPols Fl.r32 RD nPol nCh nAnt maxLevel fuel p st1 = some (some st') ∧
        Fine nR nPol nCh nAnt A len st' := by
    intro p
    induction p with
    | zero => exact fun _ => Or.inr ⟨st1, rfl, h1⟩
    | succ p ih =>
      intro hp
      unfold fitPols
      rcases ih (by omega) with e | ⟨st', e, h'⟩
      · rw [e]; exact Or.inl rfl
      · rw [e]
        exact doWhile_partial _ _ (fun s hs => fitStep_fine hb hc hA (by omega) hs) fuel h'
  unfold fitToMaximum fitChannels
  rw [e1, Option.bind_some]
  exact hpols nPol (Nat.le_refl _)

/-- For any old contents of buffers of the announced size (the symbol buffer may be larger), `encode` stays inside the buffers, and either
it has not ended, or it gives the same metadata and symbols, which are floats and below the number of
quantisation levels. -/
theorem encode_layout {RD : ℚ → Fl} {sq : Fl → Fl} {enc : Fl → Nat → Option Nat} {q : Nat}
    (hq : Total enc q) {maxLevel : Fl} (hc : 0 < nCh) (h : Holds nR (nPol * nCh) A D data)
    (hA : AntennasBelow nR nAnt A) (hR : 0 < nR) (dith : Nat → Nat) (fuel : Nat) :
    (∀ metaB sym, metaB.len = metaDataCount nR nPol nCh nAnt →
      (∀ j, metaB.len ≤ j → metaB.get j = .nan) → nR * (nPol * nCh) * 2 ≤ sym.len →
      encode Fl.r32 RD sq enc maxLevel nPol nCh nAnt dith fuel data metaB sym = some none) ∨
    ∃ (metaB' : Buf Fl) (sym' : Buf Nat), metaB'.len = metaDataCount nR nPol nCh nAnt ∧
      (∀ j, j < metaDataCount nR nPol nCh nAnt → Fl.IsFloat (metaB'.get j)) ∧
      sym'.len = nR * (nPol * nCh) * 2 ∧ (∀ j, j < nR * (nPol * nCh) * 2 → sym'.get j < q) ∧
      ∀ metaB sym, metaB.len = metaDataCount nR nPol nCh nAnt →
        (∀ j, metaB.len ≤ j → metaB.get j = .nan) → nR * (nPol * nCh) * 2 ≤ sym.len →
        ∃ sym'', encode Fl.r32 RD sq enc maxLevel nPol nCh nAnt dith fuel data metaB sym =
            some (some (metaB', sym'')) ∧ sym''.len = sym.len ∧
          ∀ j, j < nR * (nPol * nCh) * 2 → sym''.get j = sym'.get j := by
  have hcount : metaDataCount nR nPol nCh nAnt = nPol * nCh + nAnt * nPol := by
    unfold metaDataCount
    rw [Nat.mul_add, Nat.mul_comm nPol nAnt]
  rw [hcount]
  obtain ⟨st, e1, hf⟩ := normalize_some (RD := RD) (sq := sq) h hA hR
    ⟨nPol * nCh + nAnt * nPol, fun _ => .nan⟩ (Nat.le_refl _)
  have hsame : ∀ metaB : Buf Fl, metaB.len = nPol * nCh + nAnt * nPol →
      (∀ j, metaB.len ≤ j → metaB.get j = .nan) →
      normalize Fl.r32 RD sq nPol nCh nAnt (data, metaB) = some st := by
    intro metaB hl hn
    rw [← e1]
    refine normalize_indep (by rw [h.rows]; exact hR) _ _ (by rw [hl]) ?_
    intro j hj
    rw [hn j (by omega)]
  rcases fitToMaximum_fine (RD := RD) (maxLevel := maxLevel) (Nat.le_refl _) hc hA fuel hf with
    e | ⟨st', e, hf'⟩
  · left
    intro metaB sym hl hn _
    unfold encode
    rw [hsame metaB hl hn, Option.bind_some, e]
    rfl
  · right
    obtain ⟨⟨D', h1⟩, h2, h3⟩ := hf'
    obtain ⟨sym', e2, l2, q2, _, v2⟩ := quantise_total (RF := Fl.r32) hq (dith := dith) h1
      ⟨nR * (nPol * nCh) * 2, fun _ => 0⟩ (Nat.le_refl _)
    refine ⟨st'.2, sym', h2, h3, l2, q2, ?_⟩
    intro metaB sym hl hn hs
    obtain ⟨sym'', e3, l3, q3, _, v3⟩ := quantise_total (RF := Fl.r32) hq (dith := dith) h1 sym
      (by omega)
    refine ⟨sym'', ?_, l3, ?_⟩
    · unfold encode
      rw [hsame metaB hl hn, Option.bind_some, e, Option.bind_some]
      simp only
      rw [e3]
      rfl
    · exact quantise_unique v3 v2

end AF

end Dysco
