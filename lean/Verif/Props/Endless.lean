import Verif.Proof.WildFixed
import Verif.Props.Wild
import Verif.Props.WeakProgress
/-
C44: progress rests neither on user code nor on strong memory.

`HExec` (`Verif/Model/Hostile.lean`): endless executions in which `Hash`, `Eq` and `Borrow` answer arbitrarily (differently each time), under sequential
consistency. `WEndless` (`Verif/Model/Endless.lean`): the same with loads that return old values, as long as they like: it is not
assumed that stores become visible to others within any time. `CEndless`: weak memory, user code that behaves.
-/
set_option linter.unusedSectionVars false
namespace Contrie
variable {K P : Type} [DecidableEq K]

/-- In step `i` a call of session `t` ends: it returns, unwinds or is abandoned. -/
def HExec.Ends (E : HExec K P) (i t : Nat) : Prop := ((E.st i).thr t).run ≠ none ∧ ((E.st (i + 1)).thr t).run = none

/-- In step `i` a call of session `t` ends. -/
def WEndless.Ends (E : WEndless K P) (i t : Nat) : Prop := ((E.st i).thr t).run ≠ none ∧ ((E.st (i + 1)).thr t).run = none

/-! ### Arbitrary user code, sequential consistency -/

section
variable (E : HExec K P)

/-- **C44.** Lock-freedom does not rest on user code. In any endless execution with arbitrary answers of `Hash`, `Eq`, `Borrow`, in which finitely many sessions keep
taking steps inside calls, under any scheduling, and weak compare-exchanges stop failing spuriously at some point, calls end again and again. -/
theorem C44_lock_free (N : Nat) (hN : ∀ i t w o, E.lab i = .tick t w o → t < N)
    (hw : ∃ n, ∀ i, n ≤ i → ∀ t o, E.lab i ≠ .tick t true o)
    (hinf : ∀ n, ∃ i, n ≤ i ∧ ∃ t w o, E.lab i = .tick t w o) :
    ∀ n, ∃ i, n ≤ i ∧ ∃ t, E.Ends i t := by
  intro n0
  by_contra hcon
  obtain ⟨n1, hw⟩ := hw
  have hend : ∀ i, n0 ≤ i → ∀ t, ((E.st i).thr t).run ≠ none → ((E.st (i + 1)).thr t).run ≠ none :=
    fun i hi t h h' => hcon ⟨i, hi, t, h, h'⟩
  obtain ⟨n2, h1, h2⟩ := settle (r := (· < ·)) Nat.lt_wfRel.wf (fun i => (E.st i).idlers N)
    (fun i => ∀ t, t < N → ∀ r h, E.lab i ≠ .call t r h) n0 (fun i hi => E.idlers_step N (hend i hi))
  obtain ⟨n3, h3⟩ := E.rest (Finset.range N) (max n1 n2) (fun i _ t w o h => by simpa using hN i t w o h)
    (fun i hi => hw i (by omega)) (fun i hi t ht => (h2 i (by omega)).2 t (by simpa using ht))
  obtain ⟨i, hi, t, w, o, hl⟩ := hinf n3
  exact h3 i hi t w o hl

/-- **C44**, other form: if no more calls are started from some instant on (and no more compare-exchange fails spuriously), then only finitely many steps are
taken at all: no answers of user code make calls keep each other busy, or a call busy with itself, forever. -/
theorem C44_finite_work (N : Nat) (hN : ∀ i t w o, E.lab i = .tick t w o → t < N)
    (hw : ∃ n, ∀ i, n ≤ i → ∀ t o, E.lab i ≠ .tick t true o) (hc : ∃ n, ∀ i, n ≤ i → ∀ t r h, E.lab i ≠ .call t r h) :
    ∃ n, ∀ i, n ≤ i → ∀ t w o, E.lab i ≠ .tick t w o := by
  obtain ⟨n1, hw⟩ := hw
  obtain ⟨n2, hc⟩ := hc
  exact E.rest (Finset.range N) (max n1 n2) (fun i _ t w o h => by simpa using hN i t w o h)
    (fun i hi => hw i (by omega)) (fun i hi t _ => hc i (by omega) t)

/-- **C44.** Solo termination: a call that is in progress at instant `n`, in whatever state the others have been stopped, and that is from then on the only one that
takes steps (and takes them, as long as it goes on), comes to its end, whatever it is told. -/
theorem C44_solo {n t : Nat} (hr : ((E.st n).thr t).run ≠ none)
    (hsolo : ∀ i, n ≤ i → ∀ u w o, E.lab i = .tick u w o → u = t ∧ w = false)
    (hgo : ∀ m, n ≤ m → (∀ i, n ≤ i → i ≤ m → ((E.st i).thr t).run ≠ none) → ∃ i, m ≤ i ∧ ∃ w o, E.lab i = .tick t w o) :
    ∃ i, n ≤ i ∧ E.Ends i t := by
  by_contra hcon
  have hrun : ∀ d, ((E.st (n + d)).thr t).run ≠ none := by
    intro d
    induction d with
    | zero => exact hr
    | succ d ih => exact fun h => hcon ⟨n + d, by omega, ih, h⟩
  have hrun' : ∀ i, n ≤ i → ((E.st i).thr t).run ≠ none := fun i hi => by
    have := hrun (i - n); rwa [show n + (i - n) = i by omega] at this
  obtain ⟨n1, h1⟩ := E.rest {t} n (fun i hi u w o h => by simp [(hsolo i hi u w o h).1])
    (fun i hi u o h => by have := (hsolo i hi u true o h).2; cases this) (by
      intro i hi u hu r h e
      simp only [Finset.mem_singleton] at hu
      subst hu
      have hs := E.step i
      rw [e] at hs
      simp only [hStep] at hs
      split at hs
      · next h1 h2 h3 => exact hrun' i hi h2
      · cases hs)
  obtain ⟨i, hi, w, o, hl⟩ := hgo (max n n1) (by omega) (fun i hi _ => hrun' i hi)
  exact h1 i (by omega) t w o hl

/-- How calls end: by returning, by unwinding (user code panicked; or the call is abandoned), or in the assertion "Collision node not deep enough". -/
theorem C44_how_calls_end {i t : Nat} (h : E.Ends i t) : E.lab i = .abort t ∨ ∃ w o c, E.lab i = .tick t w o ∧
    ((E.st i).thr t).run = some c ∧ ((∃ r refs, (hTick o (E.st i).m w c.pc).2 = .ret r refs) ∨
      (hTick o (E.st i).m w c.pc).2 = .fail .shallowCollision) := by
  obtain ⟨h1, h2⟩ := h
  by_cases ha : (E.lab i).actor = some t
  · have hs := E.step i
    cases hl : E.lab i with
    | tick t0 w o =>
      rw [hl] at ha hs
      cases ha
      right
      obtain ⟨c, hc, -, hth⟩ := hstep_tick hs
      refine ⟨w, o, c, rfl, hc, ?_⟩
      cases hn : (hTick o (E.st i).m w c.pc).2 with
      | ret r refs => exact Or.inl ⟨r, refs, rfl⟩
      | fail f => right; rw [C38_only_panic E hc w o f hn]
      | goto pc ran => rw [hth, hn] at h2; cases h2
    | abort t0 => rw [hl] at ha; cases ha; exact Or.inl rfl
    | call t0 r hh =>
      rw [hl] at ha hs
      cases ha
      simp only [hStep] at hs
      split at hs
      · next g1 g2 g3 => exact absurd g2 h1
      · cases hs
    | _ => rw [hl] at ha; cases ha
  · rw [hstep_other (E.step i) ha] at h2
    exact absurd h2 h1
end

/-! ### Weak memory, arbitrary user code -/

section
variable (E : WEndless K P)

/-- **C44.** Lock-freedom rests neither on user code nor on strong memory. -/
theorem C44_lock_free_weak (N : Nat) (hN : ∀ i t w τ, E.lab i = .tick t w τ → t < N)
    (hw : ∃ n, ∀ i, n ≤ i → ∀ t τ, E.lab i ≠ .tick t true τ)
    (hinf : ∀ n, ∃ i, n ≤ i ∧ ∃ t w τ, E.lab i = .tick t w τ) :
    ∀ n, ∃ i, n ≤ i ∧ ∃ t, E.Ends i t := by
  intro n0
  by_contra hcon
  obtain ⟨n1, hw⟩ := hw
  have hend : ∀ i, n0 ≤ i → ∀ t, ((E.st i).thr t).run ≠ none → ((E.st (i + 1)).thr t).run ≠ none :=
    fun i hi t h h' => hcon ⟨i, hi, t, h, h'⟩
  obtain ⟨n2, h1, h2⟩ := settle (r := (· < ·)) Nat.lt_wfRel.wf (fun i => (E.S i).idlers N)
    (fun i => ∀ t, t < N → ∀ r, E.lab i ≠ .call t r) n0 (fun i hi => E.idlers_step N (hend i hi))
  obtain ⟨n3, h3⟩ := E.rest (Finset.range N) (max n1 n2) (fun i _ t w o h => by simpa using hN i t w o h)
    (fun i hi => hw i (by omega)) (fun i hi t ht => (h2 i (by omega)).2 t (by simpa using ht))
  obtain ⟨i, hi, t, w, o, hl⟩ := hinf n3
  exact h3 i hi t w o hl

/-- **C44**, other form: if no more calls are started from some instant on, only finitely many steps are taken at all. -/
theorem C44_finite_work_weak (N : Nat) (hN : ∀ i t w τ, E.lab i = .tick t w τ → t < N)
    (hw : ∃ n, ∀ i, n ≤ i → ∀ t τ, E.lab i ≠ .tick t true τ)
    (hc : ∃ n, ∀ i, n ≤ i → ∀ t r, E.lab i ≠ .call t r) :
    ∃ n, ∀ i, n ≤ i → ∀ t w τ, E.lab i ≠ .tick t w τ := by
  obtain ⟨n1, hw⟩ := hw
  obtain ⟨n2, hc⟩ := hc
  exact E.rest (Finset.range N) (max n1 n2) (fun i _ t w o h => by simpa using hN i t w o h)
    (fun i hi => hw i (by omega)) (fun i hi t _ => hc i (by omega) t)

/-- **C44.** Solo termination, whether or not it gets to see what the others stored. -/
theorem C44_solo_weak {n t : Nat} (hr : ((E.st n).thr t).run ≠ none)
    (hsolo : ∀ i, n ≤ i → ∀ u w τ, E.lab i = .tick u w τ → u = t ∧ w = false)
    (hgo : ∀ m, n ≤ m → (∀ i, n ≤ i → i ≤ m → ((E.st i).thr t).run ≠ none) → ∃ i, m ≤ i ∧ ∃ w τ, E.lab i = .tick t w τ) :
    ∃ i, n ≤ i ∧ E.Ends i t := by
  by_contra hcon
  have hrun : ∀ d, ((E.st (n + d)).thr t).run ≠ none := by
    intro d
    induction d with
    | zero => exact hr
    | succ d ih => exact fun h => hcon ⟨n + d, by omega, ih, h⟩
  have hrun' : ∀ i, n ≤ i → ((E.st i).thr t).run ≠ none := fun i hi => by
    have := hrun (i - n); rwa [show n + (i - n) = i by omega] at this
  obtain ⟨n1, h1⟩ := E.rest {t} n (fun i hi u w o h => by simp [(hsolo i hi u w o h).1])
    (fun i hi u o h => by have := (hsolo i hi u true o h).2; cases this) (by
      intro i hi u hu r e
      simp only [Finset.mem_singleton] at hu
      subst hu
      have hs := E.step i
      rw [e] at hs
      exact hrun' i hi (wstep_call hs).1)
  obtain ⟨i, hi, w, o, hl⟩ := hgo (max n n1) (by omega) (fun i hi _ => hrun' i hi)
  exact h1 i (by omega) t w o hl

/-- How calls end; cf. `C44_how_calls_end`. -/
theorem C44_how_calls_end_weak {i t : Nat} (h : E.Ends i t) : E.lab i = .abort t ∨ ∃ w τ c, E.lab i = .tick t w τ ∧
    ((E.st i).thr t).run = some c ∧ ((∃ r, E.ev i = some (.res c.inv r)) ∨
      (hTick (E.ans i) ((E.st i).seen c.pc τ) w c.pc).2 = .fail .shallowCollision) := by
  obtain ⟨h1, h2⟩ := h
  have hs := E.step i
  by_cases ha : (E.lab i).actor = some t
  · cases hl : E.lab i with
    | tick t0 w τ =>
      rw [hl] at ha hs
      cases ha
      right
      obtain ⟨c, hc, g1, g2⟩ := wstep_tick hs
      refine ⟨w, τ, c, rfl, hc, ?_⟩
      cases hn : (hTick (E.ans i) ((E.st i).seen c.pc τ) w c.pc).2 with
      | ret r refs =>
        left
        simp only [wstep, hc, hn, Option.some.injEq, Prod.mk.injEq] at hs
        exact ⟨r, hs.2.symm⟩
      | fail f =>
        right
        rw [C43_only_panic (E.upto (i + 1)) (n := i) (Nat.lt_succ_self i) hl hc f hn]
      | goto pc ran => rw [g1 pc ran hn] at h2; cases h2
    | abort t0 => rw [hl] at ha; cases ha; exact Or.inl rfl
    | call t0 r =>
      rw [hl] at ha hs
      cases ha
      exact absurd (wstep_call hs).1 h1
    | _ => rw [hl] at ha; cases ha
  · rw [wstep_other hs ha] at h2
    exact absurd h2 h1
end

/-! ### Weak memory, user code that behaves -/

section
variable {cfg : Config K P}

/-- The first `n` steps. -/
def CEndless.upto (E : CEndless cfg) (n : Nat) : CExec cfg where
  len := n
  st := E.st
  lab := E.lab
  ev := E.ev
  init := E.init
  step := fun i _ => E.step i
  enabled := fun i _ => E.enabled i
  wf := fun i _ => E.wf i
  gc := by
    intro i a _ hl
    obtain ⟨r, tr, weak, τ, h1, h2, h3, h4, h5⟩ := E.gc i a hl
    exact ⟨r, tr, weak, τ, h1, h2, h3, h4, fun j t p hj hjn hp => (h5 j t p hj hp).mono hjn (fun _ _ => rfl)⟩

/-- Executions with well-behaved user code are among those with arbitrary user code. -/
theorem C44_honest_is_special_case (E : CEndless cfg) : ∃ W : WEndless K P, W.st = E.st ∧ W.lab = E.lab ∧ W.ev = E.ev := by
  have hex : ∀ i, ∃ x : Answers P × BitVec 64, wstep (E.st i) x.1 x.2 (E.lab i) = some (E.st (i + 1), E.ev i) := by
    intro i
    obtain ⟨W, h1, h2, h3, h4⟩ := C43_honest_is_special_case (E.upto (i + 1))
    have hs := W.step i (by rw [h1]; exact Nat.lt_succ_self i)
    rw [h2, h3, h4] at hs
    exact ⟨(W.ans i, W.hash i), hs⟩
  exact ⟨⟨E.st, E.lab, fun i => (Classical.choose (hex i)).1, fun i => (Classical.choose (hex i)).2, E.ev, E.init,
    fun i => Classical.choose_spec (hex i), E.enabled, E.gc⟩, rfl, rfl, rfl⟩

/-- With user code that behaves a call that ends returns (or is made to unwind). -/
theorem CEndless.ends (E : CEndless cfg) {i t : Nat} (h1 : ((E.st i).thr t).run ≠ none) (h2 : ((E.st (i + 1)).thr t).run = none) :
    (∃ c r, ((E.st i).thr t).run = some c ∧ E.ev i = some (.res c.inv r)) ∨ E.lab i = .abort t := by
  obtain ⟨W, g1, g2, g3⟩ := C44_honest_is_special_case E
  rcases C44_how_calls_end_weak W (i := i) (t := t) ⟨by rw [g1]; exact h1, by rw [g1]; exact h2⟩ with h | ⟨w, τ, c, h3, h4, h5⟩
  · exact Or.inr (by rw [← g2]; exact h)
  · left
    rw [g1] at h4
    rcases h5 with ⟨r, h5⟩ | h5
    · exact ⟨c, r, h4, by rw [← g3]; exact h5⟩
    · exfalso
      have hs := E.step i
      rw [g2] at h3
      rw [h3] at hs
      simp only [cstep, h4, Option.some.injEq, Prod.mk.injEq] at hs
      have hf := C40_no_failure (E.upto (i + 1)) (n := i + 1) (Nat.le_refl _) t
      change ((E.st (i + 1)).thr t).failed = none at hf
      have hs' := W.step i
      rw [g1, g2, h3] at hs'
      simp only [wstep, h4, Option.some.injEq, Prod.mk.injEq] at hs'
      rw [g1] at h5
      have e2 := hs'.2
      rw [h5, g3] at e2
      have e3 := hs.2
      rw [← e2] at e3
      have e1 := hs.1
      cases hn : (tick cfg ((E.st i).seen c.pc τ) w c.pc).2 with
      | ret r refs => rw [hn] at e3; cases e3
      | fail f => rw [hn] at e1; rw [← e1] at hf; simp [CState.next, CThread.apply] at hf
      | goto pc ran => rw [hn] at e1; rw [← e1] at h2; simp [CState.next, CThread.apply] at h2

/-- **C09** under weak memory: in any endless execution in which finitely many sessions keep taking steps inside calls, and weak
compare-exchanges stop failing spuriously at some point, calls complete again and again: after every instant some call returns (or unwinds). -/
theorem C09_lock_free_weak (E : CEndless cfg) (N : Nat) (hN : ∀ i t w τ, E.lab i = .tick t w τ → t < N)
    (hw : ∃ n, ∀ i, n ≤ i → ∀ t τ, E.lab i ≠ .tick t true τ)
    (hinf : ∀ n, ∃ i, n ≤ i ∧ ∃ t w τ, E.lab i = .tick t w τ) :
    ∀ n, ∃ i, n ≤ i ∧ ((∃ id r, E.ev i = some (.res id r)) ∨ ∃ t, E.lab i = .abort t) := by
  intro n
  obtain ⟨W, g1, g2, g3⟩ := C44_honest_is_special_case E
  obtain ⟨i, hi, t, h1, h2⟩ := C44_lock_free_weak W N (by rw [g2]; exact hN) (by rw [g2]; exact hw)
    (by rw [g2]; exact hinf) n
  rw [g1] at h1 h2
  rcases E.ends h1 h2 with ⟨c, r, -, h3⟩ | h3
  · exact ⟨i, hi, Or.inl ⟨_, r, h3⟩⟩
  · exact ⟨i, hi, Or.inr ⟨t, h3⟩⟩

/-- **C09**, other form, under weak memory. -/
theorem C09_finite_work_weak (E : CEndless cfg) (N : Nat) (hN : ∀ i t w τ, E.lab i = .tick t w τ → t < N)
    (hw : ∃ n, ∀ i, n ≤ i → ∀ t τ, E.lab i ≠ .tick t true τ)
    (hc : ∃ n, ∀ i, n ≤ i → ∀ t r, E.lab i ≠ .call t r) :
    ∃ n, ∀ i, n ≤ i → ∀ t w τ, E.lab i ≠ .tick t w τ := by
  obtain ⟨W, g1, g2, g3⟩ := C44_honest_is_special_case E
  have := C44_finite_work_weak W N (by rw [g2]; exact hN) (by rw [g2]; exact hw) (by rw [g2]; exact hc)
  rwa [g2] at this
end

end Contrie
