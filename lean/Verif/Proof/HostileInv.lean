import Verif.Proof.HostileTick
import Verif.Proof.ExecInv
import Verif.Props.Memory
/-
The machine with misbehaving user code: the invariant of the whole machine.
-/
set_option linter.unusedSectionVars false
namespace Contrie
variable {K P : Type}

structure HThreadInv (m : Mem P) (th : Thread K P) : Prop where
  noFail : th.failed = none
  pinlt : ∀ p, th.pin = some p → p < m.clock
  run : ∀ c, th.run = some c → (∃ p, th.pin = some p ∧ p ≤ c.inv) ∧ c.inv < m.clock ∧ HPCInv m c.inv c.ticks c.pc
  refs : ∀ a ∈ th.refs, ∃ p, th.pin = some p ∧ Held m p a

structure HInv (s : State K P) : Prop where
  mem : HMemInv s.m
  freed : ∀ a, s.m.freed a = true → ∃ τ, s.m.retired a = some τ ∧ ∀ t p, (s.thr t).pin = some p → τ < p
  thr : ∀ t, HThreadInv s.m (s.thr t)

theorem HThreadInv.other {m m' : Mem P} {th : Thread K P} (h : HThreadInv m th) (he : Evo m m') : HThreadInv m' th where
  noFail := h.noFail
  pinlt := by intro p hp; rw [he.clock]; have := h.pinlt p hp; omega
  run := by
    intro c hc
    obtain ⟨h1, h2, h3⟩ := h.run c hc
    exact ⟨h1, by rw [he.clock]; omega, h3.evo he (by omega)⟩
  refs := by
    intro a ha
    obtain ⟨p, h1, h2⟩ := h.refs a ha
    exact ⟨p, h1, h2.evo he (Nat.le_of_lt (h.pinlt p h1))⟩

theorem HInv.init : HInv (State.init : State K P) where
  mem := HMemInv.init
  freed := by intro a ha; simp [State.init, Mem.init] at ha
  thr := by
    intro t
    refine ⟨rfl, ?_, ?_, ?_⟩
    · intro p hp; simp [State.init, Thread.init] at hp
    · intro c hc; simp [State.init, Thread.init] at hc
    · intro a ha; simp [State.init, Thread.init] at ha

theorem hStartPC_ok {m : Mem P} {n : Nat} (h : BitVec 64) (r : Req K P) : HPCInv m n 0 (hStartPC h r) := by
  cases r with
  | op o =>
    cases o with
    | get k => exact ⟨h, 0, by omega, rfl, by simp [LEVEL_BITS], rfl⟩
    | insert p => exact ⟨0, rfl, ⟨by omega, rfl, fun _ => rfl, (by intro x hx; cases hx)⟩⟩
    | getOrInsert k f => exact ⟨0, rfl, ⟨by omega, rfl, fun _ => rfl, (by intro x hx; cases hx)⟩⟩
    | remove k => exact ⟨0, rfl, ⟨by omega, rfl, ⟨[], rfl, rfl⟩, (by intro x hx; cases hx)⟩⟩
  | isEmpty => trivial
  | iter => trivial

/-- Only the collector destroys. -/
theorem hTick_freed (o : Answers P) (m : Mem P) (weak : Bool) (pc : PC K P) :
    (hTick o m weak pc).1.freed = m.freed := by
  cases pc with
  | travCas st hash mode shift cur parent node new kind =>
    simp only [hTick, tickTravCas]
    repeat' split
    all_goals first
      | rfl
      | simp only [Mem.retire, write_freed, Mem.alloc]
  | remCas key shift cur levels node new deleted =>
    simp only [hTick, tickRemCas]
    repeat' split
    all_goals first
      | rfl
      | simp only [Mem.retire, write_freed, Mem.alloc]
  | prune parent child i acc k =>
    simp only [hTick, tickPrune]
    repeat' split
    all_goals first
      | rfl
      | simp only [Mem.retire, write_freed, Mem.alloc]
  | pruneCas parent child acc k =>
    simp only [hTick, tickPruneCas]
    repeat' split
    all_goals first
      | rfl
      | simp only [Mem.retire, write_freed, Mem.alloc]
  | _ => rfl

theorem hTick_retires (o : Answers P) (m : Mem P) (weak : Bool) (pc : PC K P) {a : Nat}
    (h : (hTick o m weak pc).1.retired a ≠ m.retired a) : ∃ loc w, pc.cas = some (loc, w) ∧ w.ptr = some a := by
  have key : ∀ (m1 : Mem P) (old : Nat), m1.retired = m.retired → (m1.retire old).retired a ≠ m.retired a → old = a := by
    intro m1 old h1 h2
    by_cases e : a = old
    · exact e.symm
    · exact absurd (by simp [Mem.retire, upd_other _ _ e, h1]) h2
  cases pc with
  | travCas st hash mode shift cur parent node new kind =>
    refine ⟨cur, node, rfl, ?_⟩
    simp only [hTick, tickTravCas] at h
    repeat' split at h
    all_goals first
      | exact absurd rfl h
      | (have e := key _ _ (by simp only [write_retired, Mem.alloc]) h; subst e; assumption)
      | (refine absurd ?_ h; simp only [write_retired, Mem.alloc]; done)
  | remCas key' shift cur levels node new deleted =>
    refine ⟨cur, node, rfl, ?_⟩
    simp only [hTick, tickRemCas] at h
    repeat' split at h
    all_goals first
      | exact absurd rfl h
      | (have e := key _ _ (by simp only [write_retired, Mem.alloc]) h; subst e; assumption)
      | (refine absurd ?_ h; simp only [write_retired, Mem.alloc]; done)
  | pruneCas parent child acc k =>
    refine ⟨parent, child, rfl, ?_⟩
    simp only [hTick, tickPruneCas] at h
    repeat' split at h
    all_goals first
      | exact absurd rfl h
      | (have e := key _ _ (by simp only [write_retired, Mem.alloc]) h; subst e; assumption)
  | prune parent child i acc k =>
    simp only [hTick, tickPrune] at h
    repeat' split at h
    all_goals first
      | exact absurd rfl h
      | exact absurd (by simp [write_retired]) h
  | get => exact absurd rfl h
  | isEmpty => exact absurd rfl h
  | iterNew => exact absurd rfl h
  | iterNext => exact absurd rfl h
  | trav => exact absurd rfl h
  | rem => exact absurd rfl h
  | count => exact absurd rfl h

/-- Both sides of a compare-and-set refer to nodes the session may access. -/
theorem HPCInv.cas_held {m : Mem P} {s n : Nat} {pc : PC K P} (hi : HPCInv m s n pc) {loc : Loc} {expected : Word}
    (hc : pc.cas = some (loc, expected)) : (∃ q, LocAt m s loc q) ∧ WHeld m s expected := by
  cases pc with
  | travCas st hash mode shift cur parent node new kind =>
    simp only [PC.cas, Option.some.injEq, Prod.mk.injEq] at hc
    obtain ⟨rfl, rfl⟩ := hc
    obtain ⟨d, -, hat, hcas⟩ := hi
    refine ⟨⟨_, hat.loc⟩, ?_⟩
    intro b hb
    cases hcas with
    | fresh p q hst => cases hb
    | split a i hh => cases hb; exact hh
    | replace a p q items new found hst hh => cases hb; exact hh
  | remCas key shift cur levels node new deleted =>
    simp only [PC.cas, Option.some.injEq, Prod.mk.injEq] at hc
    obtain ⟨rfl, rfl⟩ := hc
    obtain ⟨d, a, items, -, hat, rfl, hh, -⟩ := hi
    obtain ⟨q, hq, -⟩ := hat.loc
    exact ⟨⟨q, hq⟩, (by intro b hb; cases hb; exact hh)⟩
  | pruneCas parent child acc k =>
    simp only [PC.cas, Option.some.injEq, Prod.mk.injEq] at hc
    obtain ⟨rfl, rfl⟩ := hc
    obtain ⟨-, a, cs, q, rfl, -, hh, hl, -⟩ := hi
    exact ⟨⟨_, hl⟩, (by intro b hb; cases hb; exact hh)⟩
  | get => simp [PC.cas] at hc
  | isEmpty => simp [PC.cas] at hc
  | iterNew => simp [PC.cas] at hc
  | iterNext => simp [PC.cas] at hc
  | trav => simp [PC.cas] at hc
  | rem => simp [PC.cas] at hc
  | count => simp [PC.cas] at hc
  | prune => simp [PC.cas] at hc

/-- Context of a call in progress. -/
theorem HInv.ctx {s : State K P} (h : HInv s) {t : Nat} {c : Call K P} (hc : (s.thr t).run = some c) :
    HCtx s.m c.inv := by
  obtain ⟨⟨p, hp, hpi⟩, h2, -⟩ := (h.thr t).run c hc
  refine ⟨h.mem, h2, ?_⟩
  intro a ha
  cases hf : s.m.freed a with
  | false => rfl
  | true =>
    obtain ⟨τ, h3, h4⟩ := h.freed a hf
    have := h4 t p hp
    have := ha.2 τ h3
    omega

theorem HInv.build {s : State K P} (h : HInv s) {m' : Mem P} {t : Nat} {th' : Thread K P}
    (hmem : HMemInv m') (hevo : Evo s.m m') (hfreed : m'.freed = s.m.freed) (hth : HThreadInv m' th')
    (hpin : ∀ p, th'.pin = some p → (s.thr t).pin = some p ∨ p = s.m.clock) : HInv ⟨m', upd s.thr t th'⟩ where
  mem := hmem
  freed := by
    intro a ha
    have ha' : s.m.freed a = true := by rw [← hfreed]; exact ha
    obtain ⟨τ, h1, h2⟩ := h.freed a ha'
    refine ⟨τ, hevo.retOld a τ h1, ?_⟩
    intro t' p hp
    by_cases e : t' = t
    · subst e
      simp only [upd_same] at hp
      rcases hpin p hp with h3 | h3
      · exact h2 t' p h3
      · rw [h3]; exact (h.mem.retTime a τ h1).1
    · simp only [upd_other _ _ e] at hp
      exact h2 t' p hp
  thr := by
    intro t'
    by_cases e : t' = t
    · subst e; simp only [upd_same]; exact hth
    · simp only [upd_other _ _ e]
      exact (h.thr t').other hevo

theorem HThreadInv.gone {m : Mem P} {th : Thread K P} (h : th.failed = none) :
    HThreadInv m ({ th with pin := none, refs := [], run := none } : Thread K P) :=
  ⟨h, (by intro p hp; cases hp), (by intro c hc; cases hc), (by intro a ha; cases ha)⟩

theorem HInv.step {s s' : State K P} {l : HLabel K P} (h : HInv s)
    (hst : hStep s l = some s') (hen : l.enabled s) : HInv s' ∧ Evo s.m s'.m := by
  have hevo := Evo.bump s.m
  cases l with
  | pin t =>
    simp only [hStep] at hst
    split at hst
    · next hp hf =>
      cases hst
      have hth := (h.thr t).other hevo
      refine ⟨h.build h.mem.bump hevo rfl ⟨hf, ?_, ?_, ?_⟩ ?_, hevo⟩
      · intro p hp; cases hp; exact Nat.lt_succ_self _
      · intro c hc
        obtain ⟨⟨p, h1, -⟩, -⟩ := hth.run c hc
        rw [hp] at h1; cases h1
      · intro a ha; cases ha
      · intro p hp; cases hp; exact Or.inr rfl
    · cases hst
  | unpin t =>
    simp only [hStep] at hst
    split at hst
    · next hp hr hf =>
      cases hst
      refine ⟨h.build h.mem.bump hevo rfl ⟨hf, ?_, ?_, ?_⟩ ?_, hevo⟩
      · intro p hp; cases hp
      · intro c hc; simp only [hr] at hc; cases hc
      · intro a ha; cases ha
      · intro p hp; cases hp
    · cases hst
  | call t r hh =>
    simp only [hStep] at hst
    split at hst
    · next p hp hr hf =>
      cases hst
      have hth := (h.thr t).other hevo
      refine ⟨h.build h.mem.bump hevo rfl ⟨hf, hth.pinlt, ?_, hth.refs⟩ ?_, hevo⟩
      · intro c hc
        cases hc
        exact ⟨⟨_, hp, Nat.le_of_lt ((h.thr t).pinlt _ hp)⟩, Nat.lt_succ_self _, hStartPC_ok hh r⟩
      · intro p' hp'; exact Or.inl hp'
    · cases hst
  | tick t weak o =>
    simp only [hStep] at hst
    split at hst
    · cases hst
    · next c hc =>
      obtain ⟨⟨p, hp, hpi⟩, h2, h3⟩ := (h.thr t).run c hc
      have hok := hTick_ok (h.ctx hc) o weak h3
      have hfr : (hTick o s.m weak c.pc).1.bump.freed = s.m.freed := hTick_freed o s.m weak c.pc
      generalize hTick o s.m weak c.pc = res at hst hok hfr
      obtain ⟨m1, n⟩ := res
      simp only at hst
      cases hst
      have hevo := hok.evo
      have hn := hok.next
      simp only at hevo hn hfr
      have hth0 := (h.thr t)
      have hth1 := hth0.other hevo
      refine ⟨h.build hok.inv hevo hfr ?_ ?_, hevo⟩
      · cases n with
        | goto pc ran =>
          refine ⟨hth0.noFail, hth1.pinlt, ?_, hth1.refs⟩
          intro c' hc'
          cases hc'
          exact ⟨⟨p, hp, hpi⟩, by rw [hevo.clock]; show c.inv < _; omega, hn⟩
        | ret r refs =>
          refine ⟨hth0.noFail, hth1.pinlt, (by intro c' hc'; cases hc'), ?_⟩
          intro a ha
          rcases List.mem_append.mp ha with h5 | h5
          · exact ⟨p, hp, (hn.1 a h5).mono hpi⟩
          · exact hth1.refs a h5
        | fail f =>
          have hf : f = .shallowCollision := hn
          subst hf
          exact .gone hth0.noFail
      · intro p' hp'
        cases n with
        | goto pc ran => exact Or.inl hp'
        | ret r refs => exact Or.inl hp'
        | fail f =>
          have hf : f = .shallowCollision := hn
          subst hf
          cases hp'
  | abort t =>
    simp only [hStep] at hst
    split at hst
    · cases hst
    · cases hst
      exact ⟨h.build h.mem.bump hevo rfl (.gone (h.thr t).noFail) (by intro p hp; cases hp), hevo⟩
  | free a =>
    simp only [hStep] at hst
    cases hst
    have hevo : Evo s.m { s.m.bump with freed := upd s.m.freed a true } := .of_ghost rfl rfl rfl
    obtain ⟨τ, h1, h2⟩ := hen
    refine ⟨⟨?_, ?_, ?_⟩, hevo⟩
    · refine h.mem.of_ghost rfl rfl rfl rfl (Nat.le_succ _) ?_
      intro b hb
      by_cases e : b = a
      · subst e; exact ⟨τ, h1⟩
      · simp only [upd_other _ _ e] at hb; exact h.mem.freedRet b hb
    · intro b hb
      by_cases e : b = a
      · subst e; exact ⟨τ, h1, h2⟩
      · simp only [upd_other _ _ e] at hb; exact h.freed b hb
    · intro t; exact (h.thr t).other hevo
  | idle =>
    simp only [hStep] at hst
    cases hst
    exact ⟨⟨h.mem.bump, h.freed, fun t => (h.thr t).other hevo⟩, hevo⟩

section
variable (E : HExec K P)

theorem HExec.inv (i : Nat) : HInv (E.st i) := by
  induction i with
  | zero => rw [E.init]; exact HInv.init
  | succ i ih => exact (ih.step (E.step i) (E.enabled i)).1

theorem HExec.evo (i : Nat) : Evo (E.st i).m (E.st (i + 1)).m := ((E.inv i).step (E.step i) (E.enabled i)).2

theorem HExec.clock (i : Nat) : (E.st i).m.clock = i := by
  induction i with
  | zero => rw [E.init]; rfl
  | succ i ih => rw [(E.evo i).clock, ih]
end
end Contrie
