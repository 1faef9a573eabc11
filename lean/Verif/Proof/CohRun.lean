import Verif.Proof.CohLive
/-
The coherent machine: the fate of calls, and how many accesses they make.
-/
set_option linter.unusedSectionVars false
namespace Contrie
variable {K P : Type} [DecidableEq K] {cfg : Config K P}

def CLabel.isTick (t : Nat) : CLabel K P → Bool
  | .tick t' _ _ => decide (t' = t)
  | _ => false

/-- Where the running calls of the next state come from. -/
theorem cstep_run_full {s s' : CState K P} {l : CLabel K P} {e : Option (Event K P)}
    (h : cstep cfg s l = some (s', e)) {t : Nat} {c' : Call K P} (hc : (s'.thr t).run = some c') :
    ((s.thr t).run = some c' ∧ ∀ weak τ, l ≠ .tick t weak τ) ∨
    (∃ c pc ran weak τ, (s.thr t).run = some c ∧ l = .tick t weak τ ∧ (tick cfg (s.seen c.pc τ) weak c.pc).2 = .goto pc ran ∧
      c' = { c with pc := pc, calls := c.calls + (if ran then 1 else 0), ticks := c.ticks + 1 }) ∨
    (∃ r, l = .call t r ∧ c' = ⟨s.m.clock, r, startPC cfg r, 0, 0⟩ ∧ (s.thr t).run = none) := by
  cases l with
  | pin t0 =>
    simp only [cstep] at h
    split at h
    · simp only [Option.some.injEq, Prod.mk.injEq] at h
      rw [← h.1] at hc
      simp only [CState.next] at hc
      by_cases e : t = t0
      · subst e; rw [upd_same] at hc; exact Or.inl ⟨hc, by simp⟩
      · rw [upd_other _ _ e] at hc; exact Or.inl ⟨hc, by simp⟩
    · cases h
  | unpin t0 =>
    simp only [cstep] at h
    split at h
    · simp only [Option.some.injEq, Prod.mk.injEq] at h
      rw [← h.1] at hc
      simp only [CState.next] at hc
      by_cases e : t = t0
      · subst e; rw [upd_same] at hc; exact Or.inl ⟨hc, by simp⟩
      · rw [upd_other _ _ e] at hc; exact Or.inl ⟨hc, by simp⟩
    · cases h
  | call t0 r =>
    simp only [cstep] at h
    split at h
    · next hp hr hf =>
      simp only [Option.some.injEq, Prod.mk.injEq] at h
      rw [← h.1] at hc
      simp only [CState.next] at hc
      by_cases e : t = t0
      · subst e; rw [upd_same] at hc; cases hc; exact Or.inr (Or.inr ⟨r, rfl, rfl, hr⟩)
      · rw [upd_other _ _ e] at hc; exact Or.inl ⟨hc, by simp⟩
    · cases h
  | tick t0 weak τ =>
    simp only [cstep] at h
    split at h
    · cases h
    · next c hr =>
      simp only [Option.some.injEq, Prod.mk.injEq] at h
      rw [← h.1] at hc
      simp only [CState.next] at hc
      by_cases e : t = t0
      · subst e
        rw [upd_same] at hc
        cases hx : (tick cfg (s.seen c.pc τ) weak c.pc).2 with
        | goto pc ran =>
          rw [hx] at hc
          simp only [CThread.apply, Option.some.injEq] at hc
          exact Or.inr (Or.inl ⟨c, pc, ran, weak, τ, hr, rfl, hx, hc.symm⟩)
        | ret r refs => rw [hx] at hc; cases hc
        | fail f => rw [hx] at hc; cases hc
      · rw [upd_other _ _ e] at hc
        exact Or.inl ⟨hc, by intro w τ' h'; injection h' with h'; exact e h'.symm⟩
  | abort t0 =>
    simp only [cstep] at h
    split at h
    · cases h
    · simp only [Option.some.injEq, Prod.mk.injEq] at h
      rw [← h.1] at hc
      simp only [CState.next] at hc
      by_cases e : t = t0
      · subst e; rw [upd_same] at hc; cases hc
      · rw [upd_other _ _ e] at hc; exact Or.inl ⟨hc, by simp⟩
  | sync t0 t' τ =>
    simp only [cstep, Option.some.injEq, Prod.mk.injEq] at h
    rw [← h.1] at hc
    simp only [CState.next] at hc
    by_cases e : t = t0
    · subst e; rw [upd_same] at hc; exact Or.inl ⟨hc, by simp⟩
    · rw [upd_other _ _ e] at hc; exact Or.inl ⟨hc, by simp⟩
  | free a =>
    simp only [cstep, Option.some.injEq, Prod.mk.injEq] at h
    rw [← h.1] at hc
    simp only [CState.next, upd_self] at hc
    exact Or.inl ⟨hc, by simp⟩
  | idle =>
    simp only [cstep, Option.some.injEq, Prod.mk.injEq] at h
    rw [← h.1] at hc
    simp only [CState.next, upd_self] at hc
    exact Or.inl ⟨hc, by simp⟩

/-- A call in progress stays in progress unless its session makes a step or unwinds. -/
theorem cstep_run_keep {s s' : CState K P} {l : CLabel K P} {e : Option (Event K P)}
    (h : cstep cfg s l = some (s', e)) {t : Nat} {c : Call K P} (hc : (s.thr t).run = some c) (h1 : ∀ weak τ, l ≠ .tick t weak τ)
    (h2 : l ≠ .abort t) : (s'.thr t).run = some c := by
  cases l with
  | pin t0 =>
    simp only [cstep] at h
    split at h
    · simp only [Option.some.injEq, Prod.mk.injEq] at h
      rw [← h.1]
      simp only [CState.next]
      by_cases e : t = t0
      · subst e; rw [upd_same]; exact hc
      · rw [upd_other _ _ e]; exact hc
    · cases h
  | unpin t0 =>
    simp only [cstep] at h
    split at h
    · next _ hr _ =>
      simp only [Option.some.injEq, Prod.mk.injEq] at h
      rw [← h.1]
      simp only [CState.next]
      by_cases e : t = t0
      · subst e; rw [hr] at hc; cases hc
      · rw [upd_other _ _ e]; exact hc
    · cases h
  | call t0 r =>
    simp only [cstep] at h
    split at h
    · next hp hr hf =>
      simp only [Option.some.injEq, Prod.mk.injEq] at h
      rw [← h.1]
      simp only [CState.next]
      by_cases e : t = t0
      · subst e; rw [hr] at hc; cases hc
      · rw [upd_other _ _ e]; exact hc
    · cases h
  | tick t0 weak τ =>
    have e : t ≠ t0 := by intro e; subst e; exact h1 weak τ rfl
    simp only [cstep] at h
    split at h
    · cases h
    · simp only [Option.some.injEq, Prod.mk.injEq] at h
      rw [← h.1]
      simp only [CState.next]
      rw [upd_other _ _ e]; exact hc
  | abort t0 =>
    have e : t ≠ t0 := by intro e; subst e; exact h2 rfl
    simp only [cstep] at h
    split at h
    · cases h
    · simp only [Option.some.injEq, Prod.mk.injEq] at h
      rw [← h.1]
      simp only [CState.next]
      rw [upd_other _ _ e]; exact hc
  | sync t0 t' τ =>
    simp only [cstep, Option.some.injEq, Prod.mk.injEq] at h
    rw [← h.1]
    simp only [CState.next]
    by_cases e : t = t0
    · subst e; rw [upd_same]; exact hc
    · rw [upd_other _ _ e]; exact hc
  | free a =>
    simp only [cstep, Option.some.injEq, Prod.mk.injEq] at h
    rw [← h.1]
    simp only [CState.next, upd_self]
    exact hc
  | idle =>
    simp only [cstep, Option.some.injEq, Prod.mk.injEq] at h
    rw [← h.1]
    simp only [CState.next, upd_self]
    exact hc

namespace CExec
variable (E : CExec cfg)

/-- The number of accesses session `t` makes in calls in steps `s` to `e - 1`. -/
def accesses (t s e : Nat) : Nat := ((List.range e).filter (fun i => decide (s ≤ i) && (E.lab i).isTick t)).length

theorem accesses_succ (t s e : Nat) :
    E.accesses t s (e + 1) = E.accesses t s e + if s ≤ e ∧ (E.lab e).isTick t = true then 1 else 0 := by
  simp only [accesses, List.range_succ, List.filter_append, List.length_append]
  congr 1
  simp only [List.filter_cons, List.filter_nil, Bool.and_eq_true, decide_eq_true_eq]
  split <;> rfl

theorem ticks_eq {i : Nat} (hi : i ≤ E.len) : ∀ t c, ((E.st i).thr t).run = some c → c.ticks = E.accesses t c.inv i := by
  induction i with
  | zero => intro t c hc; rw [E.init] at hc; cases hc
  | succ i ih =>
    intro t c hc
    rw [accesses_succ]
    rcases cstep_run_full (E.step i hi) hc with ⟨h1, h2⟩ | ⟨c0, pc, ran, weak, τ, h1, h2, h3, rfl⟩ | ⟨r, h1, rfl, h2⟩
    · rw [ih (by omega) t c h1]
      have : (E.lab i).isTick t = false := by
        cases hl : E.lab i <;> simp [CLabel.isTick]
        next t' w τ => intro e; subst e; exact h2 _ _ hl
      simp [this]
    · simp only
      have := (((E.cinv (n := i) (by omega)).sess t).run c0 h1).lt
      rw [ih (by omega) t c0 h1]
      simp [h2, CLabel.isTick]; omega
    · simp only [(E.base (n := i) (by omega)).clock]
      have h0 : E.accesses t i i = 0 := by
        simp only [accesses, List.length_eq_zero_iff, List.filter_eq_nil_iff, List.mem_range]
        intro a ha; simp; intro hle; omega
      rw [h0]; simp [h1, CLabel.isTick]

/-- A call is in progress, or it has returned, or it has unwound. -/
theorem fate {id t : Nat} {r : Req K P} (h : E.lab id = .call t r) (n : Nat) (hn : id < n) (hl : n ≤ E.len) :
    (∃ c, ((E.st n).thr t).run = some c ∧ c.inv = id ∧ c.req = r) ∨ (∃ j, id < j ∧ j < n ∧ ∃ r, E.ev j = some (.res id r)) ∨
    ∃ j, id < j ∧ j < n ∧ E.lab j = .abort t := by
  induction n with
  | zero => omega
  | succ n ih =>
    by_cases e : id = n
    · subst e
      have hs := E.step id hl
      rw [h] at hs
      simp only [cstep] at hs
      split at hs
      · simp only [Option.some.injEq, Prod.mk.injEq] at hs
        refine Or.inl ⟨⟨_, r, startPC cfg r, 0, 0⟩, by rw [← hs.1]; simp only [CState.next, upd_same], (E.base (n := id) (by omega)).clock, rfl⟩
      · cases hs
    · rcases ih (by omega) (by omega) with ⟨c, h1, h2, h3⟩ | ⟨j, h1, h2, h3⟩ | ⟨j, h1, h2, h3⟩
      · by_cases htick : ∃ weak τ, E.lab n = .tick t weak τ
        · obtain ⟨weak, τ, htick⟩ := htick
          have hs := E.step n hl
          rw [htick] at hs
          simp only [cstep, h1, Option.some.injEq, Prod.mk.injEq] at hs
          have hf := ((E.cinv hl).sess t).noFail
          cases hx : (tick cfg ((E.st n).seen c.pc τ) weak c.pc).2 with
          | goto pc ran =>
            refine Or.inl ⟨{ c with pc := pc, calls := c.calls + (if ran then 1 else 0), ticks := c.ticks + 1 }, ?_, ?_, ?_⟩
            · rw [← hs.1]; simp only [CState.next, upd_same, hx, CThread.apply]
            · exact h2
            · exact h3
          | ret r refs =>
            refine Or.inr (Or.inl ⟨n, by omega, by omega, r, ?_⟩)
            rw [← hs.2, hx, ← h2]; rfl
          | fail f => rw [← hs.1] at hf; simp [CState.next, hx, CThread.apply] at hf
        · by_cases habort : E.lab n = .abort t
          · exact Or.inr (Or.inr ⟨n, by omega, by omega, habort⟩)
          · exact Or.inl ⟨c, cstep_run_keep (E.step n hl) h1 (fun weak τ hw => htick ⟨weak, τ, hw⟩) habort, h2, h3⟩
      · exact Or.inr (Or.inl ⟨j, h1, by omega, h3⟩)
      · exact Or.inr (Or.inr ⟨j, h1, by omega, h3⟩)

theorem get_ticks {i t : Nat} (hi : i ≤ E.len) {c : Call K P} (h : ((E.st i).thr t).run = some c) {k : K} (hk : c.req = .op (.get k)) :
    c.ticks ≤ 16 := by
  have hp := (((E.cinv hi).sess t).run c h).pc
  simp only [PCOK] at hp
  have hT : ∀ {mode st n}, ¬ TravReq cfg (.op (.get k)) mode st n := by intro mode st n h; cases h
  have hC : ∀ {m s n κ}, ¬ ContOK cfg m s (.op (.get k)) n κ := by
    intro m s n κ h
    cases κ with
    | trav => exact hT h.1
    | rem => cases h.1
    | clean => obtain ⟨⟨⟨_, h⟩, _⟩, _⟩ := h; cases h
  split at hp
  · rw [hk] at hp; cases hp.1
  · simp only [PCInv] at hp
    split at hp
    · obtain ⟨-, -, d, hd, ht, -⟩ := hp; omega
    all_goals simp only [hk] at hp
    · cases hp.1
    · cases hp.1
    · cases hp.1
    · obtain ⟨d, -, h⟩ := hp; exact absurd h.req hT
    · obtain ⟨d, -, h, -⟩ := hp; exact absurd h.req hT
    · cases hp.1
    · cases hp.1
    · obtain ⟨⟨_, h⟩, -⟩ := hp; cases h
    · exact absurd hp.1 hC
    · exact absurd hp.1 hC
end CExec
end Contrie
