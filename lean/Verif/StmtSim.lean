import Verif.StmtLemmas

/-! # Every statement is nothing or a step of `ColumnModel` -/

namespace Dysco.Stmt
open Col
variable {V K : Type} {n : Nat} {p : Params V K}

theorem available_none_iff (c : Cache V) : c.available = none ↔ ∀ x ∈ c, x.2.writing = true := by
  unfold Cache.available
  rw [List.find?_eq_none]
  simp

theorem available_at {c : Cache V} {k : Nat} {x : Nat × Item V} (hk : c[k]? = some x)
    (h : ∀ y ∈ List.take k c, y.2.writing = true) (hx : x.2.writing = false) : c.available = some x := by
  unfold Cache.available
  obtain ⟨hlt, he⟩ := List.getElem?_eq_some_iff.mp hk
  have hc : c = List.take k c ++ x :: List.drop (k + 1) c := by
    rw [← he, List.getElem_cons_drop, List.take_append_drop]
  rw [hc, List.find?_append, List.find?_eq_none.mpr (by simpa using h)]
  simp [hx]

theorem rowsOf_mem {c : Cache V} (hk : (c.map (·.1)).Nodup) {b : Nat} {it : Item V} (h : (b, it) ∈ c) :
    rowsOf c b = some it.rows := by
  unfold rowsOf
  cases e : c.find? fun x => x.1 == b with
  | none =>
    rw [List.find?_eq_none] at e
    exact absurd (e _ h) (by simp)
  | some x =>
    have h1 := List.mem_of_find?_eq_some e
    have h2 := List.find?_some e
    obtain ⟨b', it'⟩ := x
    have hb : b' = b := by simpa using h2
    subst hb
    rw [keys_unique hk h1 h]
    rfl

section thread
variable {F F' : SState V K p.threads} {i : Fin p.threads} {t : Fin p.threads → ThreadPC V}
  {f : Nat → Option (Rows V)}

theorem abs_same {pc : TPC V} {m : Option (Option (Fin p.threads))}
    (hp : ({ F.setT i pc with mutex := m } : SState V K p.threads).pendC = F.pendC) :
    ({ F.setT i pc with mutex := m } : SState V K p.threads).abs t = F.abs t := by
  unfold SState.abs
  rw [hp]
  rfl

/-- Nobody is about to be woken because of this statement. -/
theorem pend_move {pc : TPC V} {d : State V K p.threads} {m : Option (Option (Fin p.threads))}
    (hm : m = F.mutex ∧ pc.holds = (F.threads i).holds ∨
      F.mutex = none ∧ m = some (some i) ∧ pc.holds = true ∨
      F.mutex = some (some i) ∧ m = none ∧ pc.holds = false)
    (h1 : (F.threads i).isNotify = false) (h2 : pc.isNotify = false)
    (e : F' = { F.setT i pc with d := d, mutex := m }) : F'.pend = F.pend ∧ F'.pendC = F.pendC := by
  rcases hm with ⟨hm, hh⟩ | ⟨h0, hm, hh⟩ | ⟨h0, hm, hh⟩
  · subst e
    rcases h6 : F.mutex with _ | (_ | j)
    · rw [(pend_none h6).1, (pend_none h6).2]
      exact pend_none (by rw [← h6]; exact hm)
    · rw [(pend_client h6).1, (pend_client h6).2]
      exact pend_client (by rw [← h6]; exact hm)
    · rw [(pend_thread h6).1, (pend_thread h6).2]
      have h7 := pend_thread (F := { F.setT i pc with d := d, mutex := m }) (i := j) (by rw [← h6]; exact hm)
      rw [h7.1, h7.2]
      by_cases hj : j = i
      · subst hj
        rw [h1]
        simp [SState.setT, h2]
      · simp [SState.setT, Function.update_of_ne hj]
  · rw [(pend_none h0).1, (pend_none h0).2]
    subst e
    have h7 := pend_thread (F := { F.setT i pc with d := d, mutex := m }) (i := i) hm
    rw [h7.1, h7.2]
    simp [SState.setT, h2]
  · rw [(pend_thread h0).1, (pend_thread h0).2, h1]
    subst e
    exact pend_none hm

/-- A statement of a thread that changes no variable. -/
theorem quiet {pc : TPC V} {m : Option (Option (Fin p.threads))} (h : OK p F) (ht : Thr F t)
    (hm : m = F.mutex ∧ pc.holds = (F.threads i).holds ∨
      F.mutex = none ∧ m = some (some i) ∧ pc.holds = true ∨
      F.mutex = some (some i) ∧ m = none ∧ pc.holds = false)
    (h1 : (F.threads i).isNotify = false) (h2 : pc.isNotify = false) (h3 : TOK F.d.cache F.d.stop pc)
    (h4 : ∀ pend, TR pend (F.threads i) (t i) → TR pend pc (t i))
    (h5 : pc.rank p.maxCache < (F.threads i).rank p.maxCache)
    (e : F' = { F.setT i pc with mutex := m }) :
    OK p F' ∧ Sim p F F' t (.thread i) := by
  have hpend := pend_move hm h1 h2 e
  have e1 : F'.threads = Function.update F.threads i pc := by rw [e]; rfl
  have e2 : F'.d = F.d := by rw [e]; rfl
  have e3 : F'.client = F.client := by rw [e]; rfl
  refine ⟨⟨?_, ?_, ?_, ?_⟩, Or.inl ⟨?_, ?_, ?_⟩⟩
  · rcases hm with ⟨hm, hh⟩ | ⟨h0, hm, hh⟩ | ⟨h0, hm, hh⟩
    · exact mt_keep h e1 (by rw [e]; exact hm) hh
    · exact mt_acquire h e1 h0 (by rw [e]; exact hm) hh
    · exact mt_release h e1 h0 (by rw [e]; exact hm) hh
  · refine mc_of h e3 ?_
    rcases hm with ⟨hm, hh⟩ | ⟨h0, hm, hh⟩ | ⟨h0, hm, hh⟩
    · exact Or.inl (by rw [e]; exact hm)
    · exact Or.inr ⟨by rw [h0]; simp, by rw [e]; simp [hm]⟩
    · exact Or.inr ⟨by rw [h0]; simp, by rw [e]; simp [hm]⟩
  · exact tok_of h e1 (by rw [e2]) (by rw [e2]) h3
  · rw [e2, e3]; exact h.cok
  · subst e
    exact abs_same hpend.2
  · exact thr_same ht e1 hpend.1 (h4 _ (ht i))
  · have := rank_setT e1 e3 h5
    simp only [Label.real, if_true]
    omega

/-- A statement of a thread that makes its step of `ColumnModel`. -/
theorem moved {pc : TPC V} {d : State V K p.threads} {m : Option (Option (Fin p.threads))} (h : OK p F) (ht : Thr F t)
    (hm : m = F.mutex ∧ pc.holds = (F.threads i).holds ∨
      F.mutex = none ∧ m = some (some i) ∧ pc.holds = true ∨
      F.mutex = some (some i) ∧ m = none ∧ pc.holds = false)
    (h1 : (F.threads i).isNotify = false) (h2 : pc.isNotify = false)
    (h3 : F.mutex = some (some i) ∨ d.cache = F.d.cache ∧ d.stop = F.d.stop) (h3' : TOK d.cache d.stop pc)
    (hcok : COK p d F.client) {c : ThreadPC V} (h4 : ∀ pend, TR pend pc c)
    (e : F' = { F.setT i pc with d := d, mutex := m })
    (hs : F.pendC = F'.pendC → Col.threadStep (F.abs t) i = some (F'.abs (Function.update t i c))) :
    OK p F' ∧ Sim p F F' t (.thread i) := by
  have hpend := pend_move hm h1 h2 e
  have e1 : F'.threads = Function.update F.threads i pc := by rw [e]; rfl
  have e2 : F'.d = d := by rw [e]
  have e3 : F'.client = F.client := by rw [e]; rfl
  refine ⟨⟨?_, ?_, ?_, ?_⟩, Or.inr ⟨Function.update t i c, hs hpend.2.symm, ?_⟩⟩
  · rcases hm with ⟨hm, hh⟩ | ⟨h0, hm, hh⟩ | ⟨h0, hm, hh⟩
    · exact mt_keep h e1 (by rw [e]; exact hm) hh
    · exact mt_acquire h e1 h0 (by rw [e]; exact hm) hh
    · exact mt_release h e1 h0 (by rw [e]; exact hm) hh
  · refine mc_of h e3 ?_
    rcases hm with ⟨hm, hh⟩ | ⟨h0, hm, hh⟩ | ⟨h0, hm, hh⟩
    · exact Or.inl (by rw [e]; exact hm)
    · exact Or.inr ⟨by rw [h0]; simp, by rw [e]; simp [hm]⟩
    · exact Or.inr ⟨by rw [h0]; simp, by rw [e]; simp [hm]⟩
  · rcases h3 with h3 | h3
    · exact tok_others h e1 h3 (by rw [e2]; exact h3')
    · exact tok_of h e1 (by rw [e2]; exact h3.1) (by rw [e2]; exact h3.2) (by rw [← h3.1, ← h3.2]; exact h3')
  · rw [e2, e3]; exact hcok
  · exact thr_of ht e1 hpend.1 (h4 _)

theorem cok_fewer {d d' : State V K n} {pc : CPC V} (h : COK p d pc) (hp : pc.holds = false)
    (e1 : d'.current = d.current) (e2 : d'.rowsPerBlock = d.rowsPerBlock) (e3 : d'.started = d.started)
    (e4 : ∀ b, d.cache.has b = false → d'.cache.has b = false) : COK p d' pc ∧ COK p d' pc.wake := by
  cases pc <;> simp only [COK, CPC.wake] at h ⊢ <;> first
    | exact ⟨trivial, trivial⟩
    | (rw [e1]; exact ⟨h, h⟩)
    | (rw [e3]; exact ⟨h, h⟩)
    | (rw [e2]; exact ⟨e4 _ h, e4 _ h⟩)
    | cases hp

theorem free_of (h : OK p F) (hm : F.mutex ≠ some none) : F.client.holds = false := by
  cases e : F.client.holds with
  | false => rfl
  | true => exact absurd (h.mc.mp e) hm

theorem seek_abs {again : Bool} (hi : t i = if again then .woken else .head)
    (hs : again = false → F.d.stop = false) :
    Col.threadStep (F.abs t) i = some ((F.abs t).seek i) := by
  have h1 : (F.abs t).threads i = t i := rfl
  unfold Col.threadStep
  rw [h1, hi]
  cases again with
  | true => rfl
  | false =>
    have h2 : (F.abs t).stop = false := hs rfl
    simp only [Bool.false_eq_true, if_false, h2]

theorem tr_found {pend again : Bool} {b : Nat} {c : ThreadPC V} (h : TR pend (.found again b) c) :
    c = if again then .woken else .head := by cases again <;> exact h

theorem tr_missing {pend again : Bool} {c : ThreadPC V} (h : TR pend (.missing again) c) :
    c = if again then .woken else .head := by cases again <;> exact h

theorem sim_thread (h : OK p F) (ht : Thr F t) (hI : Core p f (F.abs t)) (e : F.threadStep i = some F') :
    OK p F' ∧ Sim p F F' t (.thread i) := by
  have hti := ht i
  have htok := h.tok i
  have hmt := h.mt i
  cases hpc : F.threads i with
  | lock =>
    simp only [SState.threadStep, hpc, SState.acquire] at e
    split at e
    · rename_i hm
      injection e with e
      refine quiet (pc := .test) h ht (Or.inr (Or.inl ⟨hm, rfl, rfl⟩)) (by rw [hpc]; rfl) rfl trivial ?_ ?_ e.symm
      · rw [hpc]; exact fun _ h => h
      · rw [hpc]; simp [TPC.rank]
    · cases e
  | test =>
    rw [hpc] at hmt
    have hm := hmt.mp rfl
    simp only [SState.threadStep, hpc] at e
    rw [hpc] at hti
    split at e
    · rename_i hs
      injection e with e
      refine moved (pc := .done) (d := F.d) (c := .done) h ht (Or.inr (Or.inr ⟨hm, rfl, rfl⟩)) (by rw [hpc]; rfl) rfl (Or.inl hm) trivial h.cok
        (fun _ => rfl) e.symm ?_
      intro hp
      have h1 : (F.abs t).threads i = .head := hti
      have h2 : (F.abs t).stop = true := hs
      unfold Col.threadStep
      rw [h1]
      simp only
      rw [if_pos h2]
      subst e
      unfold SState.abs
      rw [hp]
      rfl
    · rename_i hs
      injection e with e
      refine quiet (pc := .scan false 0) h ht (Or.inl ⟨rfl, by rw [hpc]; rfl⟩) (by rw [hpc]; rfl) rfl ⟨fun _ => by simpa using hs, Nat.zero_le _, by simp⟩
        ?_ ?_ e.symm
      · rw [hpc]; exact fun _ h => h
      · rw [hpc]; simp [TPC.rank]
  | scan again k =>
    rw [hpc] at hmt hti htok
    have hm := hmt.mp rfl
    have hsz : F.d.cache.length ≤ p.maxCache := hI.size
    simp only [SState.threadStep, hpc] at e
    obtain ⟨ha, hk, hw⟩ := htok
    split at e
    · rename_i hnone
      injection e with e
      have hlen := List.getElem?_eq_none_iff.mp hnone
      refine quiet (pc := .missing again) h ht (Or.inl ⟨rfl, by rw [hpc]; rfl⟩) (by rw [hpc]; rfl) rfl ⟨ha, ?_⟩ ?_ ?_ e.symm
      · rw [available_none_iff]
        rwa [List.take_of_length_le hlen] at hw
      · rw [hpc]; intro pend hh; cases again <;> exact hh
      · rw [hpc]; simp only [TPC.rank]; omega
    · rename_i x hx
      have hlt := (List.getElem?_eq_some_iff.mp hx).1
      injection e with e
      cases hwr : x.2.writing with
      | true =>
        rw [hwr] at e
        refine quiet (pc := .scan again (k + 1)) h ht (Or.inl ⟨rfl, by rw [hpc]; rfl⟩) (by rw [hpc]; rfl) rfl ⟨ha, hlt, ?_⟩ ?_ ?_ e.symm
        · intro y hy
          rw [List.take_add_one, hx] at hy
          rcases List.mem_append.mp hy with hy | hy
          · exact hw y hy
          · have : y = x := by simpa using hy
            rw [this]; exact hwr
        · rw [hpc]; intro pend hh; cases again <;> exact hh
        · rw [hpc]; simp only [TPC.rank]; omega
      | false =>
        rw [hwr] at e
        refine quiet (pc := .found again x.1) h ht (Or.inl ⟨rfl, by rw [hpc]; rfl⟩) (by rw [hpc]; rfl) rfl ⟨ha, x.2, available_at hx hw hwr⟩ ?_ ?_ e.symm
        · rw [hpc]; intro pend hh; cases again <;> exact hh
        · rw [hpc]; simp only [TPC.rank]; omega
  | missing again =>
    rw [hpc] at hmt hti htok
    have hm := hmt.mp rfl
    simp only [SState.threadStep, hpc] at e
    split at e
    · rename_i hs
      injection e with e
      have hag : again = true := by
        cases again with
        | true => rfl
        | false => rw [htok.1 rfl] at hs; cases hs
      subst hag
      refine quiet (pc := .skip) h ht (Or.inl ⟨rfl, by rw [hpc]; rfl⟩) (by rw [hpc]; rfl) rfl ⟨hs, htok.2⟩ ?_ ?_ e.symm
      · rw [hpc]; exact fun _ h => h
      · rw [hpc]; simp [TPC.rank]
    · rename_i hs
      injection e with e
      have hpend : F.pend = false := by rw [(pend_thread hm).1, hpc]; rfl
      have hs' : F.d.stop = false := by simpa using hs
      have e1 : F'.threads = Function.update F.threads i .wait := by rw [← e]; rfl
      have hm' : F'.mutex = none := by rw [← e]
      refine ⟨⟨mt_release h e1 hm hm' rfl, mc_of h (by rw [← e]; rfl) (Or.inr ⟨by rw [hm]; simp, by rw [hm']; simp⟩),
        tok_of h e1 (by rw [← e]; rfl) (by rw [← e]; rfl) trivial, by rw [← e]; exact h.cok⟩,
        Or.inr ⟨Function.update t i .wait, ?_, ?_⟩⟩
      · change Col.threadStep (F.abs t) i = _
        rw [seek_abs (tr_missing hti) htok.1]
        have h1 : (F.abs t).cache.available = none := htok.2
        have h2 : (F.abs t).stop = false := hs'
        unfold State.seek
        rw [h1]
        have h4 : (if (F.abs t).stop = true then ThreadPC.done else .wait : ThreadPC V) = .wait := by rw [h2]; rfl
        simp only
        rw [h4]
        have h3 : F'.pendC = F.pendC := by
          rw [(pend_none hm').2, (pend_thread hm).2, hpc]; rfl
        subst e
        unfold SState.abs
        rw [h3]
        rfl
      · refine thr_of ht e1 (by rw [(pend_none hm').1, hpend]) ?_
        rw [hpend]; rfl
  | wait => simp only [SState.threadStep, hpc] at e; cases e
  | woken =>
    simp only [SState.threadStep, hpc, SState.acquire] at e
    split at e
    · rename_i hm
      injection e with e
      refine quiet (pc := .scan true 0) h ht (Or.inr (Or.inl ⟨hm, rfl, rfl⟩)) (by rw [hpc]; rfl) rfl
        ⟨(fun h => by cases h), Nat.zero_le _, by simp⟩ ?_ ?_ e.symm
      · rw [hpc]; exact fun _ h => h
      · rw [hpc]; simp [TPC.rank]
    · cases e
  | skip =>
    rw [hpc] at hmt hti htok
    have hm := hmt.mp rfl
    simp only [SState.threadStep, hpc] at e
    have hs := htok.1
    rw [if_pos hs] at e
    injection e with e
    refine moved (pc := .done) (d := F.d) (c := .done) h ht (Or.inr (Or.inr ⟨hm, rfl, rfl⟩)) (by rw [hpc]; rfl) rfl (Or.inl hm) trivial h.cok
      (fun _ => rfl) e.symm ?_
    intro hp
    have h1 : (F.abs t).cache.available = none := htok.2
    have h2 : (F.abs t).stop = true := hs
    rw [seek_abs (again := true) hti (fun h => by cases h)]
    unfold State.seek
    rw [h1]
    have h4 : (if (F.abs t).stop = true then ThreadPC.done else .wait : ThreadPC V) = .done := by rw [h2]; rfl
    simp only
    rw [h4]
    subst e
    unfold SState.abs
    rw [hp]
    rfl
  | found again b =>
    rw [hpc] at hmt hti htok
    have hm := hmt.mp rfl
    simp only [SState.threadStep, hpc] at e
    injection e with e
    obtain ⟨hag, it, hit⟩ := htok
    refine moved (pc := .unlock b) (d := { F.d with cache := F.d.cache.take b }) (m := F.mutex) (c := .encode b it.rows) h ht
      (Or.inl ⟨rfl, by rw [hpc]; rfl⟩) (by rw [hpc]; rfl) rfl (Or.inl hm) trivial ?_ (fun _ => ⟨_, rfl⟩) e.symm ?_
    · refine (cok_fewer (d' := { F.d with cache := F.d.cache.take b }) h.cok (free_of h (by rw [hm]; simp)) rfl rfl rfl ?_).1
      intro b' hb'
      rw [has_take]
      exact hb'
    · intro hp
      rw [seek_abs (tr_found hti) hag]
      have h1 : (F.abs t).cache.available = some (b, it) := hit
      unfold State.seek
      rw [h1]
      subst e
      unfold SState.abs
      rw [hp]
      rfl
  | unlock b =>
    rw [hpc] at hmt
    have hm := hmt.mp rfl
    simp only [SState.threadStep, hpc] at e
    injection e with e
    refine quiet (pc := .encode b) h ht (Or.inr (Or.inr ⟨hm, rfl, rfl⟩)) (by rw [hpc]; rfl) rfl trivial ?_ ?_ e.symm
    · rw [hpc]; exact fun _ h => h
    · rw [hpc]; simp [TPC.rank]
  | encode b =>
    rw [hpc] at hti
    simp only [SState.threadStep, hpc] at e
    obtain ⟨rows, hr⟩ := hti
    have hmem : (b, ⟨rows, true⟩) ∈ F.d.cache := hI.encoding i b rows hr
    have hro := rowsOf_mem hI.keys hmem
    have hro' : rowsOf F.d.cache b = some rows := hro
    rw [hro'] at e
    injection e with e
    refine quiet (pc := .write b rows) h ht (Or.inl ⟨rfl, by rw [hpc]; rfl⟩) (by rw [hpc]; rfl) rfl trivial ?_ ?_ e.symm
    · intro _ _; exact hr
    · rw [hpc]; simp [TPC.rank]
  | write b rows =>
    rw [hpc] at hti
    simp only [SState.threadStep, hpc] at e
    split at e
    · cases e
    · rename_i hl
      injection e with e
      refine moved (pc := .relock b) (d := { F.d with
          file := fun b' => if b' = b then some rows else F.d.file b'
          nBlocks := if F.d.nBlocks ≤ b then b + 1 else F.d.nBlocks
          writes := F.d.writes ++ [(b, rows)] }) (m := F.mutex) (c := .written b) h ht (Or.inl ⟨rfl, by rw [hpc]; rfl⟩)
        (by rw [hpc]; rfl) rfl (Or.inr ⟨rfl, rfl⟩) trivial ?_ (fun _ => rfl) e.symm ?_
      · have := h.cok
        cases hc : F.client <;> rw [hc] at this <;> exact this
      · intro hp
        have h1 : (F.abs t).threads i = .encode b rows := hti
        have h2 : (F.abs t).locked = false := by
          have : F.d.locked = false := by simpa using hl
          exact this
        unfold Col.threadStep
        rw [h1]
        simp only
        rw [if_neg (by rw [h2]; simp)]
        subst e
        unfold SState.abs
        rw [hp]
        rfl
  | relock b =>
    simp only [SState.threadStep, hpc, SState.acquire] at e
    split at e
    · rename_i hm
      injection e with e
      refine quiet (pc := .erase b) h ht (Or.inr (Or.inl ⟨hm, rfl, rfl⟩)) (by rw [hpc]; rfl) rfl trivial ?_ ?_ e.symm
      · rw [hpc]; exact fun _ h => h
      · rw [hpc]; simp [TPC.rank]
    · cases e
  | erase b =>
    rw [hpc] at hmt hti
    have hm := hmt.mp rfl
    simp only [SState.threadStep, hpc] at e
    obtain ⟨r, hr⟩ := hI.writing i b hti
    have hhas : F.d.cache.has b = true := (has_iff _ _).mpr ⟨_, hr⟩
    rw [hhas] at e
    simp only [Bool.true_eq_false, if_false] at e
    injection e with e
    have hp : F.pend = false ∧ F.pendC = false := by rw [(pend_thread hm).1, (pend_thread hm).2, hpc]; exact ⟨rfl, rfl⟩
    have e1 : F'.threads = Function.update F.threads i .notify := by rw [← e]; rfl
    have hm' : F'.mutex = some (some i) := by rw [← e]; exact hm
    have hp' : F'.pend = true ∧ F'.pendC = true := by
      rw [(pend_thread hm').1, (pend_thread hm').2, e1, Function.update_self]; exact ⟨rfl, rfl⟩
    refine ⟨⟨mt_keep h e1 (by rw [hm, hm']) (by rw [hpc]; rfl), mc_of h (by rw [← e]; rfl) (Or.inl (by rw [hm, hm'])),
      tok_others h e1 hm trivial, ?_⟩, Or.inr ⟨fun j => (Function.update t i .head j).wake, ?_, ?_⟩⟩
    · rw [← e]
      refine (cok_fewer (d' := { F.d with cache := F.d.cache.remove b }) h.cok (free_of h (by rw [hm]; simp)) rfl rfl rfl ?_).1
      intro b' hb'
      rw [has_false] at hb' ⊢
      exact fun it hit => hb' it ((mem_remove _ _ _).mp hit).1
    · have h1 : (F.abs t).threads i = .written b := hti
      change Col.threadStep (F.abs t) i = _
      unfold Col.threadStep
      rw [h1]
      simp only
      subst e
      unfold SState.abs State.notify
      rw [hp'.2, hp.2]
      rfl
    · intro j
      rw [hp'.1, e1]
      by_cases hj : j = i
      · subst hj
        simp only [Function.update_self]
        rfl
      · simp only [Function.update_of_ne hj]
        have h3 := ht j
        rw [hp.1] at h3
        revert h3
        generalize t j = c
        cases F.threads j with
        | wait => intro h3; rw [show c = .wait from h3]; rfl
        | scan again k => cases again <;> (intro h3; rw [show c = _ from h3]; rfl)
        | missing again => cases again <;> (intro h3; rw [show c = _ from h3]; rfl)
        | found again k => cases again <;> (intro h3; rw [show c = _ from h3]; rfl)
        | unlock b => rintro ⟨r, rfl⟩; exact ⟨r, rfl⟩
        | encode b => rintro ⟨r, rfl⟩; exact ⟨r, rfl⟩
        | dangling => exact fun h => h
        | _ => intro h3; rw [show c = _ from h3]; rfl
  | notify =>
    rw [hpc] at hmt hti
    have hm := hmt.mp rfl
    simp only [SState.threadStep, hpc] at e
    injection e with e
    have hp : F.pend = true ∧ F.pendC = true := by rw [(pend_thread hm).1, (pend_thread hm).2, hpc]; exact ⟨rfl, rfl⟩
    have e1 : F'.threads = fun j => (Function.update F.threads i .test j).wake := by rw [← e]; rfl
    have hm' : F'.mutex = some (some i) := by rw [← e]; exact hm
    have hp' : F'.pend = false ∧ F'.pendC = false := by
      rw [(pend_thread hm').1, (pend_thread hm').2, e1]
      simp only [Function.update_self]
      exact ⟨rfl, rfl⟩
    have hcl : F.client.holds = false := free_of h (by rw [hm]; simp)
    have hw : ∀ pc : TPC V, pc.wake.holds = pc.holds := by intro pc; cases pc <;> rfl
    have hwc : ∀ pc : CPC V, pc.wake.holds = pc.holds := by intro pc; cases pc <;> rfl
    refine ⟨⟨?_, ?_, ?_, ?_⟩, Or.inl ⟨?_, ?_, ?_⟩⟩
    · intro j
      rw [e1, hm', hw, ← hm]
      by_cases hj : j = i
      · subst hj; rw [Function.update_self]; exact ⟨fun _ => hm, fun _ => rfl⟩
      · rw [Function.update_of_ne hj]; exact h.mt j
    · rw [hm', ← hm, ← h.mc, ← e]
      simp only [hwc]
    · intro j
      rw [← e]
      simp only
      by_cases hj : j = i
      · subst hj; simp only [SState.setT, Function.update_self]; trivial
      · simp only [SState.setT, Function.update_of_ne hj]
        have h1 := h.tok j
        cases hc : F.threads j <;> rw [hc] at h1 <;> exact h1
    · rw [← e]
      exact (cok_fewer h.cok hcl rfl rfl rfl fun _ h => h).2
    · subst e
      unfold SState.abs
      rw [hp'.2, hp.2]
      simp only [if_true, Bool.false_eq_true, if_false]
      congr 1
      · cases F.client with
        | stopWait prep => cases prep <;> rfl
        | storeNotify k => cases k <;> rfl
        | storeUnlock k => cases k <;> rfl
        | storeReset k => cases k <;> rfl
        | stopLock prep => cases prep <;> rfl
        | stopTest prep => cases prep <;> rfl
        | stopLoop prep => cases prep <;> rfl
        | stopWoken prep => cases prep <;> rfl
        | stopSet prep => cases prep <;> rfl
        | stopNotify prep => cases prep <;> rfl
        | stopUnlock prep => cases prep <;> rfl
        | join prep => cases prep <;> rfl
        | _ => rfl
      · cases F.client <;> rfl
      · cases F.client <;> rfl
    · intro j
      rw [hp'.1, e1]
      by_cases hj : j = i
      · subst hj; simp only [Function.update_self]; exact hti
      · simp only [Function.update_of_ne hj]
        have h3 := ht j
        rw [hp.1] at h3
        revert h3
        generalize t j = c
        cases F.threads j with
        | scan again k => cases again <;> exact fun h => h
        | missing again => cases again <;> exact fun h => h
        | found again k => cases again <;> exact fun h => h
        | _ => exact fun h => h
    · have h4 : ({ F.setT i .test with client := F.client } : SState V K p.threads).rank p.maxCache < F.rank p.maxCache :=
        rank_setT (i := i) (pc := .test) rfl rfl (by rw [hpc]; simp [TPC.rank])
      have h5 : F'.rank p.maxCache = ({ F.setT i .test with client := F.client } : SState V K p.threads).rank p.maxCache := by
        rw [← e]
        unfold SState.rank
        simp only [rank_wake, crank_wake]
      simp only [Label.real, if_true]
      omega
  | done => simp only [SState.threadStep, hpc] at e; cases e
  | dangling => simp only [SState.threadStep, hpc] at e; cases e

end thread
end Dysco.Stmt
