import Verif.Proof.Liveness
import Verif.Props.Iterate
/-
C09 (lock-freedom), C10 (solo termination), C14 (termination of iteration).
-/
set_option linter.unusedSectionVars false
namespace Contrie
variable {K P : Type} [DecidableEq K] {cfg : Config K P}

/-! ### C09 -/

/-- 1 for a session that is not in a call. -/
def Thread.idleCnt (th : Thread K P) : Nat := if th.run.isNone then 1 else 0

/-- Number of sessions below `N` that are not in a call. -/
def State.idleCnt (N : Nat) (s : State K P) : Nat := ∑ u ∈ Finset.range N, (s.thr u).idleCnt

/-- The well-founded order of the lock-freedom proof. -/
def LF : Nat × Meas → Nat × Meas → Prop := Prod.Lex (· < ·) Meas.lt

theorem LF.wf : WellFounded LF := WellFounded.prod_lex Nat.lt_wfRel.wf Meas.wf

theorem Exec.lf_step (E : Exec cfg) {N i : Nat} (hN : ∀ t w, E.lab i = .tick t w → t < N)
    (hw : ∀ t, E.lab i ≠ .tick t true) (hret : ∀ id r, ¬ E.Returns i id r) (hab : ∀ t, E.lab i ≠ .abort t) :
    LF ((E.st (i + 1)).idleCnt N, (E.st (i + 1)).meas (Finset.range N)) ((E.st i).idleCnt N, (E.st i).meas (Finset.range N)) ∨
    ((∀ t, E.lab i ≠ .tick t false) ∧ (E.st (i + 1)).idleCnt N = (E.st i).idleCnt N ∧
      (E.st (i + 1)).meas (Finset.range N) = (E.st i).meas (Finset.range N)) := by
  have same : (∀ t ∈ Finset.range N, (E.lab i).actor ≠ some t) → (∀ t w, E.lab i ≠ .tick t w) →
      (E.st (i + 1)).idleCnt N = (E.st i).idleCnt N ∧
      (E.st (i + 1)).meas (Finset.range N) = (E.st i).meas (Finset.range N) := by
    intro h1 h2
    refine ⟨?_, E.meas_same h1 h2⟩
    refine Finset.sum_congr rfl (fun u hu => ?_)
    simp only [Thread.idleCnt, step_other (E.step i) (h1 u hu)]
  cases hl : E.lab i with
  | tick t w =>
    cases w with
    | true => exact absurd hl (hw t)
    | false =>
      left
      have ht := hN t false hl
      have hlt := E.meas_tick (T := Finset.range N) (by simpa using ht) hl
      have hst := E.step i
      rw [hl] at hst
      obtain ⟨c, hc, hm, hth, hev⟩ := step_tick hst
      have hid : (E.st (i + 1)).idleCnt N = (E.st i).idleCnt N := by
        refine sum_eq_of (t := t) ?_ ?_
        · intro u hu
          have := step_other hst (u := u) (by simp only [Label.actor]; intro e; cases e; exact hu rfl)
          simp only [Thread.idleCnt, this]
        · cases hn : (tick cfg (E.st i).m false c.pc).2 with
          | ret r refs =>
            rw [hn] at hev
            exact absurd hev (hret c.inv r)
          | fail f =>
            have := ((E.inv (i + 1)).thr t).noFail
            rw [hth, hn] at this
            cases this
          | goto pc ran => rw [hth, hn]; simp [Thread.idleCnt, Thread.apply, hc]
      rw [hid]
      exact Prod.Lex.right _ hlt
  | call t r =>
    by_cases ht : t < N
    · left
      refine Prod.Lex.left _ _ ?_
      have hst := E.step i
      rw [hl] at hst
      obtain ⟨h1, -, -, -, h2⟩ := step_call hst
      refine sum_lt_of (t := t) (by simpa using ht) ?_ ?_
      · intro u hu
        have := step_other hst (u := u) (by simp only [Label.actor]; intro e; cases e; exact hu rfl)
        simp only [Thread.idleCnt, this]
      · simp [Thread.idleCnt, h1, h2]
    · right
      refine ⟨(by intro t' e; cases e), same ?_ ?_⟩
      · intro u hu; rw [hl]; simp only [Label.actor]; intro e; cases e; simp at hu; omega
      · intro t w; rw [hl]; intro e; cases e
  | abort t => exact absurd hl (hab t)
  | pin t =>
    exact Or.inr ⟨(by intro t' e; cases e), same (fun u _ => by rw [hl]; simp [Label.actor]) (fun t w => by rw [hl]; intro e; cases e)⟩
  | unpin t =>
    exact Or.inr ⟨(by intro t' e; cases e), same (fun u _ => by rw [hl]; simp [Label.actor]) (fun t w => by rw [hl]; intro e; cases e)⟩
  | free a =>
    exact Or.inr ⟨(by intro t' e; cases e), same (fun u _ => by rw [hl]; simp [Label.actor]) (fun t w => by rw [hl]; intro e; cases e)⟩
  | idle =>
    exact Or.inr ⟨(by intro t' e; cases e), same (fun u _ => by rw [hl]; simp [Label.actor]) (fun t w => by rw [hl]; intro e; cases e)⟩

/-- **C09.** Lock-freedom. Take any infinite execution in which finitely many sessions (those below `N`) keep taking
steps inside calls forever, under any scheduling whatsoever (each of them may also be stopped for good at any point), and
in which weak compare-exchanges stop failing spuriously at some point. Then calls complete again and again: after every
instant some call returns (or unwinds, if the environment makes calls unwind). -/
theorem C09_lock_free (E : Exec cfg) (N : Nat) (hN : ∀ i t w, E.lab i = .tick t w → t < N)
    (hw : ∃ n, ∀ i, n ≤ i → ∀ t, E.lab i ≠ .tick t true)
    (hinf : ∀ n, ∃ i, n ≤ i ∧ ∃ t, E.lab i = .tick t false) :
    ∀ n, ∃ i, n ≤ i ∧ ((∃ id r, E.Returns i id r) ∨ ∃ t, E.lab i = .abort t) := by
  intro n0
  by_contra hcon
  obtain ⟨n1, hw⟩ := hw
  have hstep : ∀ i, max n0 n1 ≤ i → _ := fun i hi => E.lf_step (N := N) (i := i) (fun t w => hN i t w) (hw i (by omega))
    (fun id r h => hcon ⟨i, by omega, Or.inl ⟨id, r, h⟩⟩) (fun t h => hcon ⟨i, by omega, Or.inr ⟨t, h⟩⟩)
  have main : ∀ x : Nat × Meas, ∀ i, max n0 n1 ≤ i → ((E.st i).idleCnt N, (E.st i).meas (Finset.range N)) = x → False := by
    intro x
    induction x using LF.wf.induction with
    | _ x ih =>
      intro i hi hx
      obtain ⟨j, hij, t, hj⟩ := hinf i
      have inner : ∀ d i, max n0 n1 ≤ i → i + d = j → ((E.st i).idleCnt N, (E.st i).meas (Finset.range N)) = x → False := by
        intro d
        induction d with
        | zero =>
          intro i hi hd hx
          rcases hstep i hi with h | ⟨h, -⟩
          · exact ih _ (by rw [← hx]; exact h) (i + 1) (by omega) rfl
          · exact h t (by rw [show i = j by omega]; exact hj)
        | succ d ihd =>
          intro i hi hd hx
          rcases hstep i hi with h | ⟨-, h1, h2⟩
          · exact ih _ (by rw [← hx]; exact h) (i + 1) (by omega) rfl
          · exact ihd (i + 1) (by omega) (by omega) (by rw [h1, h2]; exact hx)
      exact inner (j - i) i hi (by omega) hx
  exact main _ (max n0 n1) (Nat.le_refl _) rfl

theorem Exec.meas_abort (E : Exec cfg) {T : Finset Nat} {i t : Nat} (hl : E.lab i = .abort t) :
    Meas.lt ((E.st (i + 1)).meas T) ((E.st i).meas T) ∨ (E.st (i + 1)).meas T = (E.st i).meas T := by
  by_cases ht : t ∈ T
  · left
    have hst := E.step i
    rw [hl] at hst
    apply Meas.lt_of
    left
    refine sum_lt_of ht ?_ ?_
    · intro u hu
      have := step_other hst (u := u) (by simp only [Label.actor]; intro e; cases e; exact hu rfl)
      simp only [Thread.rank, this]
    · simp only [Contrie.step] at hst
      split at hst
      · cases hst
      · next c hc =>
        simp only [Option.some.injEq, Prod.mk.injEq] at hst
        rw [← hst.1]
        simp only [Thread.rank, upd_same, hc, PC.rank]
        split <;> omega
  · right
    refine E.meas_same ?_ ?_
    · intro u hu; rw [hl]; simp only [Label.actor]; intro e; cases e; exact ht hu
    · intro t w; rw [hl]; intro e; cases e

/-- **C09**, other form: if from some instant on no more calls are started and no more weak compare-exchange fails
spuriously, then only finitely many steps are taken at all (so a call that is not stopped comes to its end): calls can
never keep each other busy forever. -/
theorem C09_finite_work (E : Exec cfg) (N : Nat) (hN : ∀ i t w, E.lab i = .tick t w → t < N)
    (hw : ∃ n, ∀ i, n ≤ i → ∀ t, E.lab i ≠ .tick t true) (hc : ∃ n, ∀ i, n ≤ i → ∀ t r, E.lab i ≠ .call t r) :
    ∃ n, ∀ i, n ≤ i → ∀ t w, E.lab i ≠ .tick t w := by
  by_contra hcon
  obtain ⟨n0, hw⟩ := hw
  obtain ⟨n1, hc⟩ := hc
  have hinf : ∀ n, max n0 n1 ≤ n → ∃ i, n ≤ i ∧ ∃ t, E.lab i = .tick t false := by
    intro n hn
    by_contra h
    refine hcon ⟨n, fun i hi t w e => ?_⟩
    cases w with
    | true => exact hw i (by omega) t e
    | false => exact h ⟨i, hi, t, e⟩
  have hstep : ∀ i, max n0 n1 ≤ i → Meas.lt ((E.st (i + 1)).meas (Finset.range N)) ((E.st i).meas (Finset.range N)) ∨
      ((∀ t, E.lab i ≠ .tick t false) ∧ (E.st (i + 1)).meas (Finset.range N) = (E.st i).meas (Finset.range N)) := by
    intro i hi
    have same : (∀ t ∈ Finset.range N, (E.lab i).actor ≠ some t) → (∀ t w, E.lab i ≠ .tick t w) →
        (∀ t, E.lab i ≠ .tick t false) ∧ (E.st (i + 1)).meas (Finset.range N) = (E.st i).meas (Finset.range N) :=
      fun h1 h2 => ⟨fun t => h2 t false, E.meas_same h1 h2⟩
    cases hl : E.lab i with
    | tick t w =>
      cases w with
      | true => exact absurd hl (hw i (by omega) t)
      | false => exact Or.inl (E.meas_tick (by simpa using hN i t false hl) hl)
    | call t r => exact absurd hl (hc i (by omega) t r)
    | abort t =>
      rcases E.meas_abort (T := Finset.range N) hl with h | h
      · exact Or.inl h
      · exact Or.inr ⟨(by intro t' e; cases e), h⟩
    | pin t => rw [hl] at same; exact Or.inr (same (fun u _ => by simp [Label.actor]) (fun t w e => by cases e))
    | unpin t => rw [hl] at same; exact Or.inr (same (fun u _ => by simp [Label.actor]) (fun t w e => by cases e))
    | free a => rw [hl] at same; exact Or.inr (same (fun u _ => by simp [Label.actor]) (fun t w e => by cases e))
    | idle => rw [hl] at same; exact Or.inr (same (fun u _ => by simp [Label.actor]) (fun t w e => by cases e))
  have main : ∀ x : Meas, ∀ i, max n0 n1 ≤ i → (E.st i).meas (Finset.range N) = x → False := by
    intro x
    induction x using Meas.wf.induction with
    | _ x ih =>
      intro i hi hx
      obtain ⟨j, hij, t, hj⟩ := hinf i hi
      have inner : ∀ d i, max n0 n1 ≤ i → i + d = j → (E.st i).meas (Finset.range N) = x → False := by
        intro d
        induction d with
        | zero =>
          intro i hi hd hx
          rcases hstep i hi with h | ⟨h, -⟩
          · exact ih _ (by rw [← hx]; exact h) (i + 1) (by omega) rfl
          · exact h t (by rw [show i = j by omega]; exact hj)
        | succ d ihd =>
          intro i hi hd hx
          rcases hstep i hi with h | ⟨-, h2⟩
          · exact ih _ (by rw [← hx]; exact h) (i + 1) (by omega) rfl
          · exact ihd (i + 1) (by omega) (by omega) (by rw [h2]; exact hx)
      exact inner (j - i) i hi (by omega) hx
  exact main _ (max n0 n1) (Nat.le_refl _) rfl

/-- Non-vacuity of `C09_finite_work`: the race of `exRace`, after which nothing happens any more. -/
example : ∃ E : Exec exCfg, (∀ i t w, E.lab i = .tick t w → t < 4) ∧ (∃ n, ∀ i, n ≤ i → ∀ t, E.lab i ≠ .tick t true) ∧
    (∃ n, ∀ i, n ≤ i → ∀ t r, E.lab i ≠ .call t r) ∧ E.lab 16 = .tick 2 false := by
  obtain ⟨E, h1, h2, h3⟩ := Exec.ofCheck' (cfg := exCfg) 4 (ls := exRace) (by decide)
  have hend : ∀ i, 23 ≤ i → E.lab i = .idle := by
    intro i hi
    rw [h3, List.getD_eq_getElem?_getD, List.getElem?_eq_none (by simpa [exRace] using hi)]; rfl
  refine ⟨E, ?_, ⟨23, fun i hi t e => by rw [hend i hi] at e; cases e⟩, ⟨23, fun i hi t r e => by rw [hend i hi] at e; cases e⟩,
    by rw [h3]; rfl⟩
  intro i t w e
  by_cases hi : 23 ≤ i
  · rw [hend i hi] at e; cases e
  · rw [h3] at e
    have hall : ∀ l ∈ exRace, ∀ t w, l = .tick t w → t < 4 := by
      intro l hl t w hlt
      subst hlt
      simp only [exRace, List.mem_cons, reduceCtorEq, Label.tick.injEq, List.not_mem_nil, false_or, or_false] at hl
      omega
    refine hall (exRace.getD i .idle) ?_ t w e
    rw [List.getD_eq_getElem?_getD, List.getElem?_eq_getElem (by simpa [exRace] using hi)]
    exact List.getElem_mem _

/-- Two sessions insert under the same key again and again, taking turns after every single memory access. -/
def exForever (i : Nat) (s : State Nat (Nat × Nat)) : Label Nat (Nat × Nat) :=
  if i = 0 then .pin 0 else if i = 1 then .pin 1
  else if (s.thr (i % 2)).run.isNone then .call (i % 2) (.op (.insert (7, i))) else .tick (i % 2) false

/-- Non-vacuity of C09: this schedule is an execution that meets all hypotheses. -/
example : ∃ E : Exec exCfg, (∀ i t w, E.lab i = .tick t w → t < 2) ∧ (∃ n, ∀ i, n ≤ i → ∀ t, E.lab i ≠ .tick t true) ∧
    ∀ n, ∃ i, n ≤ i ∧ ∃ t, E.lab i = .tick t false := by
  have hpin : ∀ (E : Exec exCfg) (n : Nat), (∀ j, j < n → E.lab j = exForever j (E.st j)) → ∀ i, i ≤ n → ∀ t, t < 2 →
      (t < i → ((E.st i).thr t).pin ≠ none) ∧ (i ≤ t → ((E.st i).thr t).pin = none) := by
    intro E n h i
    induction i with
    | zero => intro _ t ht; exact ⟨fun h => by omega, fun _ => by rw [E.init]; rfl⟩
    | succ i ih =>
      intro hi t ht
      have hs := E.step i
      rw [h i (by omega)] at hs
      have ih := ih (by omega) t ht
      unfold exForever at hs
      split at hs
      · next e =>
        subst e
        simp only [Contrie.step, E.init] at hs
        cases hs' : (State.init : State Nat (Nat × Nat)).thr 0 with
        | mk p r c f =>
        simp only [State.init, Thread.init, Option.some.injEq, Prod.mk.injEq] at hs
        rw [← hs.1]
        by_cases e : t = 0
        · subst e; simp
        · simp only [upd_other _ _ e]; simp; omega
      · split at hs
        · next e =>
          subst e
          simp only [Contrie.step] at hs
          split at hs
          · simp only [Option.some.injEq, Prod.mk.injEq] at hs
            rw [← hs.1]
            by_cases e : t = 1
            · subst e; simp
            · simp only [upd_other _ _ e]; exact ⟨fun _ => ih.1 (by omega), fun h => by omega⟩
          · cases hs
        · refine ⟨fun _ => ?_, fun h => by omega⟩
          have ih := ih.1 (by omega)
          split at hs
          · obtain ⟨-, -, -, h4, -⟩ := step_call hs
            by_cases e : t = i % 2
            · subst e; rw [h4]; exact ih
            · simp only [Contrie.step] at hs
              split at hs <;> simp only [Option.some.injEq, Prod.mk.injEq, reduceCtorEq] at hs
              rw [← hs.1]; simp only [upd_other _ _ e]; exact ih
          · obtain ⟨c, hc, -, h4, -⟩ := step_tick hs
            by_cases e : t = i % 2
            · subst e; rw [h4]
              cases (tick exCfg (E.st i).m false c.pc).2 <;> exact ih
            · simp only [Contrie.step, hc, Option.some.injEq, Prod.mk.injEq] at hs
              rw [← hs.1]; simp only [upd_other _ _ e]; exact ih
  obtain ⟨E, hE⟩ := Exec.ofStrategy (cfg := exCfg) exForever (by
    intro E i h
    have hp := hpin E i h i (Nat.le_refl i)
    have hf := fun t => ((E.inv i).thr t).noFail
    unfold exForever
    split
    · next e =>
      subst e
      refine ⟨trivial, trivial, ?_⟩
      simp only [Contrie.step, (hp 0 (by omega)).2 (by omega), hf 0]
      trivial
    · split
      · next e =>
        subst e
        refine ⟨trivial, trivial, ?_⟩
        simp only [Contrie.step, (hp 1 (by omega)).2 (by omega), hf 1]
        trivial
      · have hp' := (hp (i % 2) (by omega)).1 (by omega)
        split
        · next hr =>
          refine ⟨trivial, trivial, ?_⟩
          simp only [Option.isNone_iff_eq_none] at hr
          cases hq : ((E.st i).thr (i % 2)).pin with
          | none => exact absurd hq hp'
          | some p => simp only [Contrie.step, hq, hr, hf (i % 2)]; trivial
        · next hr =>
          refine ⟨trivial, trivial, ?_⟩
          cases hq : ((E.st i).thr (i % 2)).run with
          | none => rw [hq] at hr; exact absurd rfl hr
          | some c => simp only [Contrie.step, hq]; trivial)
  have hlab : ∀ i, 2 ≤ i → E.lab i = if ((E.st i).thr (i % 2)).run.isNone then .call (i % 2) (.op (.insert (7, i)))
      else .tick (i % 2) false := by
    intro i hi
    rw [hE i, exForever, if_neg (by omega), if_neg (by omega)]
  have htk : ∀ i t w, E.lab i = .tick t w → t < 2 ∧ w = false := by
    intro i t w h
    rw [hE i, exForever] at h
    repeat' split at h
    all_goals cases h
    exact ⟨by omega, rfl⟩
  refine ⟨E, fun i t w h => (htk i t w h).1, ⟨0, fun i _ t h => by have := (htk i t true h).2; cases this⟩, ?_⟩
  intro n
  by_cases hr : ((E.st (n + 2)).thr ((n + 2) % 2)).run.isNone
  · refine ⟨n + 4, by omega, (n + 4) % 2, ?_⟩
    have h1 := hlab (n + 2) (by omega)
    rw [if_pos hr] at h1
    have hs := E.step (n + 2)
    rw [h1] at hs
    obtain ⟨h2, -⟩ := step_call hs
    have h3 : ((E.st (n + 4)).thr ((n + 2) % 2)).run = ((E.st (n + 3)).thr ((n + 2) % 2)).run := by
      refine step_other (E.step (n + 3)) ?_
      rw [hlab (n + 3) (by omega)]
      split <;> (simp only [Label.actor, ne_eq, Option.some.injEq]; omega)
    have h2' : ((E.st (n + 3)).thr ((n + 2) % 2)).run = some _ := h2
    rw [h2'] at h3
    rw [hlab (n + 4) (by omega), show (n + 4) % 2 = (n + 2) % 2 by omega, h3]
    simp
  · exact ⟨n + 2, by omega, (n + 2) % 2, by rw [hlab (n + 2) (by omega), if_neg hr]⟩

/-! ### C10 -/

/-- **C10.** Solo termination (obstruction-freedom): from any reachable state, whatever calls other sessions have been
stopped in the middle of (forever), a call in progress that runs alone returns after finitely many of its own steps. -/
theorem C10_solo_termination (E : Exec cfg) {i t : Nat} {c : Call K P} (hc : E.Running i t c) :
    ∃ n s' r, RunOK cfg (E.st i) (List.replicate n (.tick t false)) ∧
      runList cfg (E.st i) (List.replicate n (.tick t false)) = some (s', [.res c.inv r]) ∧ (s'.thr t).run = none :=
  Exec.solo_finishes _ E i c rfl hc

/-- **C10** for a whole call: in any reachable state, a session that holds a guard and is not in a call can start any
request and, running alone, gets a result. -/
theorem C10_solo_call (E : Exec cfg) (i t : Nat) {p : Nat} (hp : ((E.st i).thr t).pin = some p)
    (hr : ((E.st i).thr t).run = none) (rq : Req K P) (hwf : (Label.call t rq).WF cfg) :
    ∃ n s' r, RunOK cfg (E.st i) (.call t rq :: List.replicate n (.tick t false)) ∧
      runList cfg (E.st i) (.call t rq :: List.replicate n (.tick t false)) = some (s', [.inv i rq, .res i r]) ∧
      (s'.thr t).run = none := by
  have hf := ((E.inv i).thr t).noFail
  have hok1 : RunOK cfg (E.st i) [.call t rq] := by
    refine ⟨trivial, hwf, ?_⟩
    simp only [Contrie.step, hp, hr, hf]
    trivial
  obtain ⟨E1, a1, a2, a3, a4⟩ := E.splice i hok1
  have hl1 : E1.lab i = .call t rq := by simpa using a4 0
  have hs1 := E1.step i
  rw [hl1, a1 i (Nat.le_refl i)] at hs1
  obtain ⟨b1, b2, -⟩ := step_call hs1
  rw [E.clock] at b1 b2
  obtain ⟨n, s', r, c1, c2, c3⟩ := C10_solo_termination E1 b1
  refine ⟨n, s', r, ?_, ?_, c3⟩
  · exact ⟨trivial, hwf, by simp only [hs1]; exact c1⟩
  · rw [b2] at hs1
    simp only [runList, hs1, c2]
    rfl

/-! ### C14: termination of iteration -/

/-- How far an iteration still has to go. -/
def Call.iterMeas (m : Mem P) (c : Call K P) : Nat × Nat := (c.pc.loc1 c.ticks, c.pc.loc2 m)

theorem iter_pc {A : Nat → AMap K P} {m : Mem P} {c : Call K P} (hi : PCInv cfg A m c) (hq : c.req = .iter) :
    c.pc = .iterNew ∨ ∃ lv out, c.pc = .iterNext lv out := by
  cases hpc : c.pc with
  | iterNew => exact Or.inl rfl
  | iterNext lv out => exact Or.inr ⟨lv, out, rfl⟩
  | get => simp only [PCInv, hpc, hq] at hi; exact absurd hi.1 (by simp)
  | isEmpty => simp only [PCInv, hpc, hq] at hi; exact absurd hi.1 (by simp)
  | trav st hash mode shift cur parent =>
    simp only [PCInv, hpc, hq] at hi
    obtain ⟨d, -, h⟩ := hi
    exact absurd h.req (by intro h; cases h)
  | travCas st hash mode shift cur parent node new kind =>
    simp only [PCInv, hpc, hq] at hi
    obtain ⟨d, -, h, -⟩ := hi
    exact absurd h.req (by intro h; cases h)
  | rem => simp only [PCInv, hpc, hq] at hi; exact absurd hi.1 (by simp)
  | remCas => simp only [PCInv, hpc, hq] at hi; exact absurd hi.1 (by simp)
  | count => simp only [PCInv, hpc, hq] at hi; exact absurd hi.1 (by simp)
  | prune parent child i acc k =>
    simp only [PCInv, hpc, hq] at hi
    obtain ⟨h, -⟩ := hi
    cases k with
    | trav => exact absurd h.1 (by intro h; cases h)
    | rem => simp [ContOK] at h
    | clean => simp [ContOK] at h
  | pruneCas parent child acc k =>
    simp only [PCInv, hpc, hq] at hi
    obtain ⟨h, -⟩ := hi
    cases k with
    | trav => exact absurd h.1 (by intro h; cases h)
    | rem => simp [ContOK] at h
    | clean => simp [ContOK] at h

/-- Every step of an iteration brings it nearer to its end, whatever the others do. -/
theorem iter_tick {A : Nat → AMap K P} {m m' : Mem P} {weak : Bool} {c : Call K P} (hi : PCInv cfg A m c) (hq : c.req = .iter)
    {pc : PC K P} {ran : Bool} (h : tick cfg m weak c.pc = (m', .goto pc ran)) : m' = m ∧
      Prod.Lex (· < ·) (· < ·) (pc.loc1 (c.ticks + 1), pc.loc2 m) (c.pc.loc1 c.ticks, c.pc.loc2 m) := by
  have hm : m' = m := by
    rcases iter_pc hi hq with e | ⟨lv, out, e⟩ <;>
    · rw [e] at h; simp only [tick, Prod.mk.injEq] at h; exact h.1.symm
  subst hm
  refine ⟨rfl, ?_⟩
  have hg : Good m' m' c.ticks c.pc pc := by
    rcases iter_pc hi hq with e | ⟨lv, out, e⟩
    · rw [e] at h ⊢; exact good_iterNew (ran := ran) h
    · rw [e] at h ⊢; exact good_iterNext (ran := ran) h
  have hr : c.pc.rank = 2 := by rcases iter_pc hi hq with e | ⟨lv, out, e⟩ <;> rw [e] <;> rfl
  have he : c.pc.ell m' = 0 := by rcases iter_pc hi hq with e | ⟨lv, out, e⟩ <;> rw [e] <;> rfl
  have hrp : pc.rank = 2 ∨ pc.rank = 1 := by unfold PC.rank; split <;> simp
  have hpc : pc.rank = 2 := by
    rcases iter_pc hi hq with e | ⟨lv, out, e⟩
    · rw [e] at h; simp only [tick, tickIterNew, Prod.mk.injEq, Next.goto.injEq] at h; rw [← h.2.1]; rfl
    · rw [e] at h
      simp only [tick, Prod.mk.injEq, true_and] at h
      unfold tickIterNext at h
      repeat' split at h
      all_goals first
        | (simp only [Next.goto.injEq] at h; rw [← h.1]; rfl)
        | cases h
  rcases hg.2 with g | ⟨-, g⟩
  · omega
  rcases g with g | ⟨g1, g⟩
  · exact Prod.Lex.left _ _ g
  rw [g1]
  rcases g with g | ⟨-, g⟩
  · exact Prod.Lex.right _ g
  exfalso
  rcases g with g | ⟨-, g | ⟨-, g | ⟨-, -, -, g⟩⟩⟩ <;> omega

/-- **C14.** Iteration is wait-free: an iteration whose session keeps being scheduled (while the iteration lasts) ends after finitely many of its
steps (it returns, or unwinds / is dropped early), whatever other sessions do meanwhile. -/
theorem C14_iteration_terminates (E : Exec cfg) {id t : Nat} (h : E.lab id = .call t .iter)
    (hinf : ∀ n c, E.Running n t c → c.inv = id → ∃ i, n ≤ i ∧ ∃ w, E.lab i = .tick t w) :
    (∃ j out, E.Returns j id (.list out)) ∨ ∃ j, id < j ∧ E.lab j = .abort t := by
  by_contra hcon
  have hst := E.step id
  rw [h] at hst
  obtain ⟨h1, h2, -⟩ := step_call hst
  rw [E.clock] at h1 h2
  have hnr : ∀ j r, ¬ E.Returns j id r := by
    intro j r hr
    obtain ⟨out, rfl, -⟩ := E.res_iter h2 hr
    exact hcon (Or.inl ⟨j, out, hr⟩)
  have hna : ∀ j, id < j → E.lab j ≠ .abort t := fun j hj e => hcon (Or.inr ⟨j, hj, e⟩)
  -- the call goes on forever, and its measure never goes up
  have wf : WellFounded (Prod.Lex (α := Nat) (β := Nat) (· < ·) (· < ·)) :=
    WellFounded.prod_lex Nat.lt_wfRel.wf Nat.lt_wfRel.wf
  have next : ∀ i c, id < i → E.Running i t c → c.inv = id → c.req = .iter →
      ∃ c', E.Running (i + 1) t c' ∧ c'.inv = id ∧ c'.req = .iter ∧
        (Prod.Lex (· < ·) (· < ·) (c'.iterMeas (E.st (i + 1)).m) (c.iterMeas (E.st i).m) ∨
          ((∀ w, E.lab i ≠ .tick t w) ∧ c'.iterMeas (E.st (i + 1)).m = c.iterMeas (E.st i).m)) := by
    intro i c hi hc hinv hreq
    by_cases htk : ∃ w, E.lab i = .tick t w
    · obtain ⟨w, hl⟩ := htk
      have hst := E.step i
      rw [hl] at hst
      obtain ⟨c1, g1, g2, g3, g4⟩ := step_tick hst
      rw [hc] at g1; cases g1
      cases hn : (tick cfg (E.st i).m w c.pc).2 with
      | ret r refs => rw [hn, hinv] at g4; exact absurd g4 (hnr i r)
      | fail f =>
        have := ((E.inv (i + 1)).thr t).noFail
        rw [g3, hn] at this
        cases this
      | goto pc ran =>
        obtain ⟨k1, k2⟩ := iter_tick (m' := (tick cfg (E.st i).m w c.pc).1) (E.run_pcinv hc) hreq (by rw [← hn])
        refine ⟨{ c with pc := pc, calls := c.calls + (if ran then 1 else 0), ticks := c.ticks + 1 }, ?_, hinv, hreq, Or.inl ?_⟩
        · simp only [Exec.Running, g3, hn]; rfl
        · rw [k1] at g2
          have e : pc.loc2 (E.st (i + 1)).m = pc.loc2 (E.st i).m := by
            rw [g2]
            cases pc with
            | iterNext lv out =>
              simp only [PC.loc2]
              clear k2 hn
              induction lv with
              | nil => rfl
              | cons y lv ih => obtain ⟨w, idx⟩ := y; simp only [rho, ih]; rfl
            | _ => rfl
          simp only [Call.iterMeas, e]
          exact k2
    · have hl : ∀ w, E.lab i ≠ .tick t w := fun w e => htk ⟨w, e⟩
      refine ⟨c, step_run_keep (E.step i) hc hl (hna i hi), hinv, hreq, Or.inr ⟨hl, ?_⟩⟩
      simp only [Call.iterMeas]
      rw [loc2_evo (E.run_pcinv hc) (E.stepOK i).evo]
  have main : ∀ x : Nat × Nat, ∀ i c, id < i → E.Running i t c → c.inv = id → c.req = .iter →
      c.iterMeas (E.st i).m = x → False := by
    intro x
    induction x using wf.induction with
    | _ x ih =>
      intro i c hi hc hinv hreq hx
      obtain ⟨j, hij, w, hj⟩ := hinf i c hc hinv
      have inner : ∀ d i c, id < i → i + d = j → E.Running i t c → c.inv = id → c.req = .iter →
          c.iterMeas (E.st i).m = x → False := by
        intro d
        induction d with
        | zero =>
          intro i c hi hd hc hinv hreq hx
          obtain ⟨c', k1, k2, k3, k4⟩ := next i c hi hc hinv hreq
          rcases k4 with h | ⟨h, -⟩
          · exact ih _ (by rw [← hx]; exact h) (i + 1) c' (by omega) k1 k2 k3 rfl
          · exact h w (by rw [show i = j by omega]; exact hj)
        | succ d ihd =>
          intro i c hi hd hc hinv hreq hx
          obtain ⟨c', k1, k2, k3, k4⟩ := next i c hi hc hinv hreq
          rcases k4 with h | ⟨-, h⟩
          · exact ih _ (by rw [← hx]; exact h) (i + 1) c' (by omega) k1 k2 k3 rfl
          · exact ihd (i + 1) c' (by omega) (by omega) k1 k2 k3 (by rw [h]; exact hx)
      exact inner (j - i) i c hi (by omega) hc hinv hreq hx
  exact main _ (id + 1) _ (by omega) h1 rfl rfl rfl

set_option maxRecDepth 10000 in
/-- Non-vacuity of C14: the iteration of `exIter` (which overlaps with two inserts). -/
example : ∃ E : Exec exCfg, E.lab 18 = .call 1 .iter ∧
    ∀ n c, E.Running n 1 c → c.inv = 18 → ∃ i, n ≤ i ∧ ∃ w, E.lab i = .tick 1 w := by
  obtain ⟨E, h1, h2, h3⟩ := Exec.ofCheck' (cfg := exCfg) 2 (ls := exIter) (by decide)
  have hret : E.Returns 98 18 (.list [(2, 3), (5, 5), (7, 1), (23, 4)]) := by simp only [Exec.Returns, h2]; rfl
  refine ⟨E, by rw [h3]; rfl, ?_⟩
  intro n c hc hi
  refine ⟨98, ?_, false, by rw [h3]; rfl⟩
  by_contra hn
  exact ((E.res_gone hret).mono E (by omega) (show 98 + 1 ≤ n by omega)) 1 c hc hi

/-- Session 0 is stopped forever in the middle of the clean-up of `remove(1)` (five cells are condemned already), session
1 has just called `insert((3,30))`. -/
def exStuck : List (Label Nat (Nat × Nat)) :=
  [.pin 0, .call 0 (.op (.insert (1, 10)))] ++ ticks 0 2 ++ [.call 0 (.op (.insert (2, 20)))] ++ ticks 0 5 ++
  [.call 0 (.op (.remove 1))] ++ ticks 0 24 ++ [.pin 1, .call 1 (.op (.insert (3, 30)))]

/-- Non-vacuity of C10. -/
example : ∃ (E : Exec exCfg) (c : Call Nat (Nat × Nat)), E.Running 37 1 c ∧ ((E.st 37).thr 0).run.isSome = true := by
  obtain ⟨E, h1, h2, h3⟩ := Exec.ofCheck' (cfg := exCfg) 2 (ls := exStuck) (by decide)
  refine ⟨E, ?_⟩
  simp only [Exec.Running, h1]
  exact ⟨_, rfl, rfl⟩

end Contrie
