import Verif.Proof.CohStore
/-
Executions of the coherent machine: clocks, views, the past, happens-before.
-/
set_option linter.unusedSectionVars false
namespace Contrie
variable {K P : Type} [DecidableEq K]

theorem tick_clock (cfg : Config K P) (m : Mem P) (weak : Bool) (pc : PC K P) :
    (tick cfg m weak pc).1.clock = m.clock := by
  have hw : ∀ (m : Mem P) w ℓ, (m.write w ℓ).clock = m.clock := fun m w ℓ => (write_frame m w ℓ).2.1
  cases pc with
  | travCas st hash mode shift cur parent node new kind =>
    simp only [tick, tickTravCas]
    repeat' split
    all_goals first
      | rfl
      | simp only [Mem.retire, hw, Mem.alloc]
  | remCas key shift cur levels node new deleted =>
    simp only [tick, tickRemCas]
    repeat' split
    all_goals first
      | rfl
      | simp only [Mem.retire, hw, Mem.alloc]
  | prune parent child i acc k =>
    simp only [tick, tickPrune]
    repeat' split
    all_goals first
      | rfl
      | simp only [Mem.retire, hw, Mem.alloc]
  | pruneCas parent child acc k =>
    simp only [tick, tickPruneCas]
    repeat' split
    all_goals first
      | rfl
      | simp only [Mem.retire, hw, Mem.alloc]
  | _ => rfl

theorem see_clock (m : Mem P) (x : Option (Loc × Word)) : (m.see x).clock = m.clock := by
  cases x with
  | none => rfl
  | some y => exact (write_frame m y.2 y.1).2.1

theorem see_freed (m : Mem P) (x : Option (Loc × Word)) : (m.see x).freed = m.freed := by
  cases x with
  | none => rfl
  | some y => exact (write_frame m y.2 y.1).2.2.2.1

@[simp] theorem next_clock (s : CState K P) (m' : Mem P) (t : Nat) (th : CThread K P) :
    (s.next m' t th).m.clock = m'.clock + 1 := rfl

theorem apply_view (th : CThread K P) (c : Call K P) (n : Next K P) : (th.apply c n).view = th.view := by
  cases n <;> rfl

theorem apply_pin (th : CThread K P) (c : Call K P) (n : Next K P) : (th.apply c n).pin = th.pin := by
  cases n <;> rfl

/-- Every step lets time pass, and changes one session. -/
theorem cstep_next {cfg : Config K P} {s s' : CState K P} {l : CLabel K P} {e : Option (Event K P)}
    (h : cstep cfg s l = some (s', e)) : ∃ m' t th, s' = s.next m' t th ∧ m'.clock = s.m.clock ∧
      (m'.freed = s.m.freed ∨ ∃ a, l = .free a ∧ m'.freed = upd s.m.freed a true) ∧
      (th.view = (s.thr t).view ∨
        (∃ weak τ c, l = .tick t weak τ ∧ (s.thr t).run = some c ∧
          th.view = c.pc.look (s.seen c.pc τ) weak τ s.m.clock (s.thr t).view) ∨
        ∃ t' τ, l = .sync t t' τ ∧ th.view = fun ℓ => max ((s.thr t).view ℓ) (s.viewAt τ t' ℓ)) := by
  cases l with
  | pin t =>
    simp only [cstep] at h
    split at h
    · simp only [Option.some.injEq, Prod.mk.injEq] at h
      exact ⟨_, _, _, h.1.symm, rfl, Or.inl rfl, Or.inl rfl⟩
    · cases h
  | unpin t =>
    simp only [cstep] at h
    split at h
    · simp only [Option.some.injEq, Prod.mk.injEq] at h
      exact ⟨_, _, _, h.1.symm, rfl, Or.inl rfl, Or.inl rfl⟩
    · cases h
  | call t r =>
    simp only [cstep] at h
    split at h
    · simp only [Option.some.injEq, Prod.mk.injEq] at h
      exact ⟨_, _, _, h.1.symm, rfl, Or.inl rfl, Or.inl rfl⟩
    · cases h
  | tick t weak τ =>
    simp only [cstep] at h
    split at h
    · cases h
    · next c hc =>
      simp only [Option.some.injEq, Prod.mk.injEq] at h
      refine ⟨_, _, _, h.1.symm, ?_, Or.inl ?_, Or.inr (Or.inl ⟨weak, τ, c, rfl, hc, ?_⟩)⟩
      · split
        · rw [tick_clock]; exact see_clock _ _
        · rfl
      · split
        · rw [tick_freed]; exact see_freed _ _
        · rfl
      · rw [apply_view]
  | abort t =>
    simp only [cstep] at h
    split at h
    · cases h
    · simp only [Option.some.injEq, Prod.mk.injEq] at h
      exact ⟨_, _, _, h.1.symm, rfl, Or.inl rfl, Or.inl rfl⟩
  | sync t t' τ =>
    simp only [cstep] at h
    simp only [Option.some.injEq, Prod.mk.injEq] at h
    exact ⟨_, _, _, h.1.symm, rfl, Or.inl rfl, Or.inr (Or.inr ⟨t', τ, rfl, rfl⟩)⟩
  | free a =>
    simp only [cstep] at h
    simp only [Option.some.injEq, Prod.mk.injEq] at h
    exact ⟨_, _, _, h.1.symm, rfl, Or.inr ⟨a, rfl, rfl⟩, Or.inl rfl⟩
  | idle =>
    simp only [cstep] at h
    simp only [Option.some.injEq, Prod.mk.injEq] at h
    exact ⟨_, _, _, h.1.symm, rfl, Or.inl rfl, Or.inl rfl⟩

namespace CExec
variable {cfg : Config K P} (E : CExec cfg)

/-- The view of session `t` at instant `n`. -/
def V (t n : Nat) : Loc → Nat := ((E.st n).thr t).view

/-- What is known about clocks, views and the past at instant `n`. -/
structure Base (n : Nat) : Prop where
  clock : (E.st n).m.clock = n
  past : ∀ τ, τ < n → (E.st n).past τ = (E.st τ).m
  pastView : ∀ τ, τ < n → (E.st n).pastView τ = fun t => E.V t τ
  view : ∀ t ℓ, E.V t n ℓ ≤ n

theorem Base.memAt {n : Nat} (h : E.Base n) {τ : Nat} (hτ : τ ≤ n) : (E.st n).memAt τ = (E.st τ).m := by
  simp only [CState.memAt, h.clock]
  split
  · next e => rw [e]
  · exact h.past τ (by omega)

theorem Base.viewAt {n : Nat} (h : E.Base n) {τ : Nat} (hτ : τ ≤ n) (t : Nat) : (E.st n).viewAt τ t = E.V t τ := by
  simp only [CState.viewAt, h.clock]
  split
  · next e => rw [e]; rfl
  · rw [h.pastView τ (by omega)]

/-- Where may a session look? -/
theorem looks {n : Nat} (hn : n < E.len) (hb : E.Base n) {t : Nat} {weak : Bool} {τ : Nat} (hl : E.lab n = .tick t weak τ)
    {c : Call K P} (hc : ((E.st n).thr t).run = some c) {ℓ : Loc} {o : LoadOrd} (ha : c.pc.access .code = some (ℓ, o)) :
    τ ≤ n ∧ E.V t n ℓ ≤ τ := by
  have he := E.enabled n hn
  rw [hl] at he
  rcases he with he | ⟨h1, c', ℓ', o', h2, h3, h4, h5, h6⟩
  · rw [hb.clock] at he
    subst he
    exact ⟨Nat.le_refl _, hb.view t ℓ⟩
  · rw [hb.clock] at h1
    rw [hc] at h2; cases h2
    rw [ha] at h3; cases h3
    exact ⟨by omega, h5⟩

theorem tick_le {n : Nat} (hn : n < E.len) (hb : E.Base n) {t : Nat} {weak : Bool} {τ : Nat} (hl : E.lab n = .tick t weak τ) :
    τ ≤ n := by
  have he := E.enabled n hn
  rw [hl] at he
  rcases he with he | ⟨h1, -⟩
  · rw [hb.clock] at he; omega
  · rw [hb.clock] at h1; omega

theorem base_step {n : Nat} (hn : n < E.len) (hb : E.Base n)
    (hv : ∀ τ, τ ≤ n → ∀ t ℓ, E.V t τ ℓ ≤ τ) : E.Base (n + 1) ∧ ∀ t ℓ, E.V t n ℓ ≤ E.V t (n + 1) ℓ := by
  obtain ⟨m', t, th, h1, h2, -, h3⟩ := cstep_next (E.step n hn)
  have hth : ∀ ℓ, E.V t n ℓ ≤ th.view ℓ ∧ th.view ℓ ≤ n + 1 := by
    intro ℓ
    have h0 := hb.view t ℓ
    rcases h3 with h3 | ⟨weak, τ, c, hl, hc, h3⟩ | ⟨t', τ, hl, h3⟩
    · rw [h3]; exact ⟨Nat.le_refl _, by change E.V t n ℓ ≤ _; omega⟩
    · rw [h3]
      simp only [PC.look]
      cases ha : c.pc.access .code with
      | none => exact ⟨Nat.le_refl _, by change E.V t n ℓ ≤ _; omega⟩
      | some z =>
        obtain ⟨ℓ', o⟩ := z
        simp only
        obtain ⟨a1, a2⟩ := E.looks hn hb hl hc ha
        rw [hb.clock]
        by_cases e : ℓ = ℓ'
        · subst e
          simp only [upd_same]
          split <;> omega
        · rw [upd_other _ _ e]
          exact ⟨Nat.le_refl _, by change E.V t n ℓ ≤ _; omega⟩
    · have hτ : τ ≤ n := by
        have he := E.enabled n hn
        rw [hl] at he
        have he' : τ ≤ (E.st n).m.clock := he
        rw [hb.clock] at he'; exact he'
      rw [h3]
      rw [hb.viewAt E hτ]
      have := hv τ hτ t' ℓ
      have h0' : ((E.st n).thr t).view ℓ ≤ n := h0
      exact ⟨Nat.le_max_left _ _, by simp only; omega⟩
  have hV : ∀ t' ℓ, E.V t' (n + 1) ℓ = if t' = t then th.view ℓ else E.V t' n ℓ := by
    intro t' ℓ
    simp only [V, h1, CState.next]
    by_cases e : t' = t
    · subst e; simp
    · simp [upd_other _ _ e, e]
  refine ⟨⟨?_, ?_, ?_, ?_⟩, ?_⟩
  · rw [h1, next_clock, h2, hb.clock]
  · intro τ hτ
    simp only [h1, CState.next, hb.clock]
    by_cases e : τ = n
    · subst e; simp
    · rw [upd_other _ _ e]; exact hb.past τ (by omega)
  · intro τ hτ
    simp only [h1, CState.next, hb.clock]
    by_cases e : τ = n
    · subst e; simp; rfl
    · rw [upd_other _ _ e]; exact hb.pastView τ (by omega)
  · intro t' ℓ
    rw [hV]
    split
    · exact (hth ℓ).2
    · have := hb.view t' ℓ; omega
  · intro t' ℓ
    rw [hV]
    split
    · next e => subst e; exact (hth ℓ).1
    · exact Nat.le_refl _

theorem base_all (n : Nat) (hn : n ≤ E.len) : E.Base n ∧ ∀ τ, τ ≤ n → ∀ t ℓ, E.V t τ ℓ ≤ τ := by
  induction n with
  | zero =>
    refine ⟨⟨by rw [E.init]; rfl, (by intro τ h; omega), (by intro τ h; omega), ?_⟩, ?_⟩
    · intro t ℓ; simp [V, E.init, CState.init, CThread.init]
    · intro τ hτ t ℓ
      have : τ = 0 := by omega
      subst this
      simp [V, E.init, CState.init, CThread.init]
  | succ n ih =>
    obtain ⟨h1, h2⟩ := ih (by omega)
    have h3 := (E.base_step (by omega) h1 h2).1
    refine ⟨h3, ?_⟩
    intro τ hτ t ℓ
    by_cases e : τ = n + 1
    · subst e; exact h3.view t ℓ
    · exact h2 τ (by omega) t ℓ

theorem base {n : Nat} (hn : n ≤ E.len) : E.Base n := (E.base_all n hn).1

theorem V_le {n : Nat} (hn : n ≤ E.len) (t : Nat) (ℓ : Loc) : E.V t n ℓ ≤ n := (E.base hn).view t ℓ

theorem V_mono (t : Nat) {i j : Nat} (hij : i ≤ j) (hj : j ≤ E.len) (ℓ : Loc) : E.V t i ℓ ≤ E.V t j ℓ := by
  induction hij with
  | refl => exact Nat.le_refl _
  | step hij ih =>
    have := (E.base_step hj (E.base (by omega)) (E.base_all _ (by omega)).2).2 t ℓ
    exact Nat.le_trans (ih (by omega)) this

/-- Happens-before is about time, and makes views grow. -/
theorem hb {x y : Nat × Nat} (h : HB E.lab E.len x y) (hy : y.2 ≤ E.len) :
    x.2 ≤ y.2 ∧ ∀ ℓ, E.V x.1 x.2 ℓ ≤ E.V y.1 y.2 ℓ := by
  induction h with
  | po t hij => exact ⟨hij, E.V_mono t hij hy⟩
  | @sync t t' τ j hj hl =>
    have hb := E.base (Nat.le_of_lt hj)
    have hτ : τ ≤ j := by
      have he := E.enabled j hj
      rw [hl] at he
      have he' : τ ≤ (E.st j).m.clock := he
      rw [hb.clock] at he'; exact he'
    refine ⟨by simp only; omega, ?_⟩
    intro ℓ
    have hs := E.step j hj
    rw [hl] at hs
    simp only [cstep, Option.some.injEq, Prod.mk.injEq] at hs
    simp only [V]
    rw [← hs.1]
    simp only [CState.next, upd_same, hb.viewAt E hτ]
    exact Nat.le_max_right _ _
  | @trans x y z h1 h2 ih1 ih2 =>
    obtain ⟨a1, a2⟩ := ih2 hy
    obtain ⟨b1, b2⟩ := ih1 (by omega)
    exact ⟨by omega, fun ℓ => Nat.le_trans (b2 ℓ) (a2 ℓ)⟩

/-- What is destroyed was destroyed by the collector. -/
theorem freed_at {n : Nat} (hn : n ≤ E.len) {a : Nat} (h : (E.st n).m.freed a = true) :
    ∃ i, i < n ∧ E.lab i = .free a := by
  induction n with
  | zero => rw [E.init] at h; cases h
  | succ n ih =>
    obtain ⟨m', t, th, h1, h2, h3, -⟩ := cstep_next (E.step n (by omega))
    have hm : (E.st (n + 1)).m.freed = m'.freed := by rw [h1]; rfl
    rw [hm] at h
    rcases h3 with h3 | ⟨b, hl, h3⟩
    · rw [h3] at h
      obtain ⟨i, hi, hl⟩ := ih (by omega) h
      exact ⟨i, by omega, hl⟩
    · rw [h3] at h
      by_cases e : a = b
      · subst e; exact ⟨n, by omega, hl⟩
      · rw [upd_other _ _ e] at h
        obtain ⟨i, hi, hl⟩ := ih (by omega) h
        exact ⟨i, by omega, hl⟩
end CExec
end Contrie
