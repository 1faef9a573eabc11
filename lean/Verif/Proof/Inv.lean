import Verif.Proof.TickIter
import Verif.Model.Exec
/-
The invariant of the whole machine.
-/
set_option linter.unusedSectionVars false
namespace Contrie
variable {K P : Type} [DecidableEq K]

structure ThreadInv (cfg : Config K P) (A : Nat → AMap K P) (W : Nat → Option (LP K P)) (m : Mem P)
    (th : Thread K P) : Prop where
  noFail : th.failed = none
  pinlt : ∀ p, th.pin = some p → p < m.clock
  run : ∀ c, th.run = some c → (∃ p, th.pin = some p ∧ p ≤ c.inv) ∧ c.inv < m.clock ∧
    PCInv cfg A m c ∧ LinInv W m.clock c
  refs : ∀ a ∈ th.refs, ∃ p, th.pin = some p ∧ Held m p a

structure Inv (cfg : Config K P) (A : Nat → AMap K P) (W : Nat → Option (LP K P)) (s : State K P) : Prop where
  mem : MemInv cfg A s.m
  hA : A s.m.clock = s.m.abs cfg
  freed : ∀ a, s.m.freed a = true → ∃ τ, s.m.retired a = some τ ∧ ∀ t p, (s.thr t).pin = some p → τ < p
  thr : ∀ t, ThreadInv cfg A W s.m (s.thr t)
  wid : ∀ τ lp, τ < s.m.clock → W τ = some lp → lp.id < τ
  inj : ∀ t t' c c', (s.thr t).run = some c → (s.thr t').run = some c' → c.inv = c'.inv → t = t'

/-- The update that takes effect in a step of the machine. -/
def lpStep (cfg : Config K P) (s : State K P) : Label K P → Option (LP K P)
  | .tick t weak => match (s.thr t).run with
    | some c => lpOf cfg s.m weak c
    | none => none
  | _ => none

section
variable {cfg : Config K P} {A : Nat → AMap K P} {W : Nat → Option (LP K P)}

theorem LinInv.next {n : Nat} {c : Call K P} (h : LinInv W n c) (hW : ∀ lp, W n = some lp → lp.id ≠ c.inv) :
    LinInv W (n + 1) c := by
  simp only [LinInv] at h ⊢
  cases hk : c.pc.taken with
  | none =>
    simp only [hk] at h ⊢
    intro τ lp hτ hw
    by_cases e : τ = n
    · subst e; exact hW lp hw
    · exact h τ lp (by omega) hw
  | some p => simp only [hk] at h ⊢; exact taken_mono (Nat.le_succ _) h

/-- What a step of someone else leaves intact. -/
theorem ThreadInv.other {m m' : Mem P} {th : Thread K P} (h : ThreadInv cfg A W m th) (he : Evo m m')
    (hW : ∀ lp, W m.clock = some lp → ∀ c, th.run = some c → lp.id ≠ c.inv) : ThreadInv cfg A W m' th where
  noFail := h.noFail
  pinlt := by intro p hp; rw [he.clock]; have := h.pinlt p hp; omega
  run := by
    intro c hc
    obtain ⟨h1, h2, h3, h4⟩ := h.run c hc
    refine ⟨h1, by rw [he.clock]; omega, h3.evo he (by omega), ?_⟩
    rw [he.clock]
    exact h4.next (fun lp hl => hW lp hl c hc)
  refs := by
    intro a ha
    obtain ⟨p, h1, h2⟩ := h.refs a ha
    exact ⟨p, h1, h2.evo he (Nat.le_of_lt (h.pinlt p h1))⟩

theorem Inv.init (hA : A 0 = (State.init : State K P).m.abs cfg) : Inv cfg A W (State.init : State K P) where
  mem := MemInv.init cfg A
  hA := hA
  freed := by intro a ha; simp [State.init, Mem.init] at ha
  thr := by
    intro t
    refine ⟨rfl, ?_, ?_, ?_⟩
    · intro p hp; simp [State.init, Thread.init] at hp
    · intro c hc; simp [State.init, Thread.init] at hc
    · intro a ha; simp [State.init, Thread.init] at ha
  wid := by intro τ lp h; simp [State.init, Mem.init] at h
  inj := by intro t t' c c' h; simp [State.init, Thread.init] at h

theorem startPC_ok {m : Mem P} {r : Req K P} {n : Nat} (hwf : ∀ o, r = .op o → o.WF cfg.key) :
    PCInv cfg A m ⟨n, r, startPC cfg r, 0, 0⟩ := by
  cases r with
  | op o =>
    cases o with
    | get k => exact ⟨rfl, rfl, 0, by omega, rfl, by simp [LEVEL_BITS], rfl⟩
    | insert p => exact ⟨0, rfl, ⟨.ins p, rfl, by omega, rfl, fun _ => rfl, by intro x hx; cases hx⟩⟩
    | getOrInsert k f => exact ⟨0, rfl, ⟨.fut k f (hwf _ rfl), rfl, by omega, rfl, fun _ => rfl, by intro x hx; cases hx⟩⟩
    | remove k => exact ⟨rfl, rfl, 0, rfl, ⟨by omega, rfl, rfl, by intro x hx; cases hx⟩⟩
  | isEmpty => exact ⟨rfl, rfl⟩
  | iter => exact ⟨rfl, rfl⟩

theorem startPC_taken (r : Req K P) : (startPC cfg r).taken = none := by
  cases r with
  | op o => cases o <;> rfl
  | isEmpty => rfl
  | iter => rfl

theorem write_freed (m : Mem P) (w : Word) (l : Loc) : (m.write w l).freed = m.freed := by
  cases l with
  | root => rfl
  | slot a i => simp only [Mem.write]; split <;> rfl

/-- Only the collector destroys. -/
theorem tick_freed (cfg : Config K P) (m : Mem P) (weak : Bool) (pc : PC K P) :
    (tick cfg m weak pc).1.freed = m.freed := by
  cases pc with
  | travCas st hash mode shift cur parent node new kind =>
    simp only [tick, tickTravCas]
    repeat' split
    all_goals first
      | rfl
      | simp only [Mem.retire, write_freed, Mem.alloc]
  | remCas key shift cur levels node new deleted =>
    simp only [tick, tickRemCas]
    repeat' split
    all_goals first
      | rfl
      | simp only [Mem.retire, write_freed, Mem.alloc]
  | prune parent child i acc k =>
    simp only [tick, tickPrune]
    repeat' split
    all_goals first
      | rfl
      | simp only [Mem.retire, write_freed, Mem.alloc]
  | pruneCas parent child acc k =>
    simp only [tick, tickPruneCas]
    repeat' split
    all_goals first
      | rfl
      | simp only [Mem.retire, write_freed, Mem.alloc]
  | _ => rfl

/-- Context of a call in progress. -/
theorem Inv.ctx {s : State K P} (h : Inv cfg A W s) {t : Nat} {c : Call K P} (hc : (s.thr t).run = some c) :
    Ctx cfg A s.m c.inv := by
  obtain ⟨⟨p, hp, hpi⟩, h2, -, -⟩ := (h.thr t).run c hc
  refine ⟨h.mem, h.hA, h2, ?_⟩
  intro a ha
  cases hf : s.m.freed a with
  | false => rfl
  | true =>
    obtain ⟨τ, h3, h4⟩ := h.freed a hf
    have := h4 t p hp
    have := ha.2 τ h3
    omega

/-- What one step does. -/
structure StepOK (cfg : Config K P) (A : Nat → AMap K P) (W : Nat → Option (LP K P)) (s s' : State K P)
    (l : Label K P) (e : Option (Event K P)) : Prop where
  evo : Evo s.m s'.m
  abs : match W s.m.clock with
    | none => s'.m.abs cfg = s.m.abs cfg
    | some lp => (s.m.abs cfg).apply cfg.key lp.op = (s'.m.abs cfg, lp.ret) ∧
        ∃ t c, (s.thr t).run = some c ∧ lp.id = c.inv ∧ c.req = .op lp.op ∧ c.pc.taken = none ∧
          ∃ weak, l = .tick t weak
  inv : ∀ id r, e = some (.inv id r) → id = s.m.clock ∧ ∃ t, l = .call t r
  res : ∀ id r, e = some (.res id r) → ∃ t c refs weak, l = .tick t weak ∧ (s.thr t).run = some c ∧ c.inv = id ∧
    RetOK cfg A W s'.m c r refs ∧ (s'.thr t).run = none ∧ (tick cfg s.m weak c.pc).2 = .ret r refs

/-- All threads are as before except `t`. -/
theorem Inv.build {s : State K P} (h : Inv cfg A W s) {m' : Mem P} {t : Nat} {th' : Thread K P}
    (hmem : MemInv cfg A m') (hA' : A (s.m.clock + 1) = m'.abs cfg) (hevo : Evo s.m m')
    (hfreed : m'.freed = s.m.freed)
    (hth : ThreadInv cfg A W m' th')
    (hpin : ∀ p, th'.pin = some p → (s.thr t).pin = some p ∨ p = s.m.clock)
    (hrun : ∀ c, th'.run = some c → (∃ c0, (s.thr t).run = some c0 ∧ c.inv = c0.inv) ∨ c.inv = s.m.clock)
    (hW : ∀ lp, W s.m.clock = some lp → lp.id < s.m.clock ∧ ∀ t' c, t' ≠ t → (s.thr t').run = some c → lp.id ≠ c.inv) :
    Inv cfg A W ⟨m', upd s.thr t th'⟩ where
  mem := hmem
  hA := by show A m'.clock = _; rw [hevo.clock]; exact hA'
  freed := by
    intro a ha
    have ha' : s.m.freed a = true := by rw [← hfreed]; exact ha
    obtain ⟨τ, h1, h2⟩ := h.freed a ha'
    refine ⟨τ, hevo.retOld a τ h1, ?_⟩
    intro t' p hp
    by_cases e : t' = t
    · subst e
      simp only [upd_same] at hp
      rcases hpin p hp with h3 | h3
      · exact h2 t' p h3
      · rw [h3]; exact (h.mem.retTime a τ h1).1
    · simp only [upd_other _ _ e] at hp
      exact h2 t' p hp
  thr := by
    intro t'
    by_cases e : t' = t
    · subst e; simp only [upd_same]; exact hth
    · simp only [upd_other _ _ e]
      exact (h.thr t').other hevo (fun lp hl c hc => (hW lp hl).2 t' c e hc)
  wid := by
    intro τ lp hτ hw
    have hτ' : τ < s.m.clock + 1 := by rw [← hevo.clock]; exact hτ
    by_cases e : τ = s.m.clock
    · subst e; exact (hW lp hw).1
    · exact h.wid τ lp (by omega) hw
  inj := by
    intro t1 t2 c1 c2 h1 h2 he
    have lift : ∀ t' c, t' ≠ t → (s.thr t').run = some c → c.inv < s.m.clock :=
      fun t' c _ hc => ((h.thr t').run c hc).2.1
    by_cases e1 : t1 = t
    · by_cases e2 : t2 = t
      · rw [e1, e2]
      · subst e1
        simp only [upd_same] at h1
        simp only [upd_other _ _ e2] at h2
        have hlt := lift t2 c2 e2 h2
        rcases hrun c1 h1 with ⟨c0, h3, h4⟩ | h3
        · exact h.inj t1 t2 c0 c2 h3 h2 (by omega)
        · omega
    · simp only [upd_other _ _ e1] at h1
      have hlt1 := lift t1 c1 e1 h1
      by_cases e2 : t2 = t
      · subst e2
        simp only [upd_same] at h2
        rcases hrun c2 h2 with ⟨c0, h3, h4⟩ | h3
        · exact h.inj t1 t2 c1 c0 h1 h3 (by omega)
        · omega
      · simp only [upd_other _ _ e2] at h2
        exact h.inj t1 t2 c1 c2 h1 h2 he

theorem Inv.step {s s' : State K P} {l : Label K P} {e : Option (Event K P)} (h : Inv cfg A W s)
    (hst : Contrie.step cfg s l = some (s', e)) (hen : l.enabled s) (hwf : l.WF cfg)
    (hA' : A (s.m.clock + 1) = s'.m.abs cfg) (hW : W s.m.clock = lpStep cfg s l) :
    Inv cfg A W s' ∧ StepOK cfg A W s s' l e := by
  have absb : ∀ m' : Mem P, m' = s.m.bump → m'.abs cfg = s.m.abs cfg := by
    intro m' e; subst e; exact abs_mem rfl rfl
  cases l with
  | pin t =>
    have hWn : W s.m.clock = none := hW
    simp only [Contrie.step] at hst
    split at hst
    · next hp hf =>
      cases hst
      have hevo := Evo.bump s.m
      have hth := (h.thr t).other hevo (by intro lp hl; rw [hWn] at hl; cases hl)
      refine ⟨h.build h.mem.bump hA' hevo rfl ⟨hf, ?_, ?_, ?_⟩ ?_ ?_ (by intro lp hl; rw [hWn] at hl; cases hl), ?_⟩
      · intro p hp; cases hp; exact Nat.lt_succ_self _
      · intro c hc
        obtain ⟨⟨p, h1, -⟩, -⟩ := hth.run c hc
        rw [hp] at h1; cases h1
      · intro a ha; cases ha
      · intro p hp; cases hp; exact Or.inr rfl
      · intro c hc; exact Or.inl ⟨c, hc, rfl⟩
      · refine ⟨hevo, by rw [hWn]; exact absb _ rfl, (by intro _ _ h; cases h), (by intro _ _ h; cases h)⟩
    · cases hst
  | unpin t =>
    have hWn : W s.m.clock = none := hW
    simp only [Contrie.step] at hst
    split at hst
    · next hp hr hf =>
      cases hst
      have hevo := Evo.bump s.m
      refine ⟨h.build h.mem.bump hA' hevo rfl ⟨hf, ?_, ?_, ?_⟩ ?_ ?_ (by intro lp hl; rw [hWn] at hl; cases hl), ?_⟩
      · intro p hp; cases hp
      · intro c hc; simp only [hr] at hc; cases hc
      · intro a ha; cases ha
      · intro p hp; cases hp
      · intro c hc; simp only [hr] at hc; cases hc
      · refine ⟨hevo, by rw [hWn]; exact absb _ rfl, (by intro _ _ h; cases h), (by intro _ _ h; cases h)⟩
    · cases hst
  | call t r =>
    have hWn : W s.m.clock = none := hW
    simp only [Contrie.step] at hst
    split at hst
    · next p hp hr hf =>
      cases hst
      have hevo := Evo.bump s.m
      have hth := (h.thr t).other hevo (by intro lp hl; rw [hWn] at hl; cases hl)
      refine ⟨h.build h.mem.bump hA' hevo rfl ⟨hf, hth.pinlt, ?_, hth.refs⟩ ?_ ?_ (by intro lp hl; rw [hWn] at hl; cases hl), ?_⟩
      · intro c hc
        cases hc
        refine ⟨⟨_, hp, Nat.le_of_lt ((h.thr t).pinlt _ hp)⟩, Nat.lt_succ_self _, startPC_ok ?_, ?_⟩
        · intro o ho; subst ho; exact hwf
        · simp only [LinInv, startPC_taken]
          intro τ lp hτ hw
          by_cases e : τ = s.m.clock
          · subst e; rw [hWn] at hw; cases hw
          · have hτ' : τ < s.m.clock + 1 := hτ
            have := h.wid τ lp (by omega) hw
            show lp.id ≠ s.m.clock
            omega
      · intro p' hp'; exact Or.inl hp'
      · intro c hc; cases hc; exact Or.inr rfl
      · refine ⟨hevo, by rw [hWn]; exact absb _ rfl, ?_, by intro _ _ h; cases h⟩
        intro id r' h; cases h; exact ⟨rfl, t, rfl⟩
    · cases hst
  | tick t weak =>
    simp only [Contrie.step] at hst
    split at hst
    · cases hst
    · next c hc =>
      obtain ⟨⟨p, hp, hpi⟩, h2, h3, h4⟩ := (h.thr t).run c hc
      have x := h.ctx hc
      have hW' : W s.m.clock = lpOf cfg s.m weak c := by rw [hW]; simp only [lpStep, hc]
      have hok := tick_ok x h3 h4 hW'
      generalize htk : tick cfg s.m weak c.pc = res at hst hok
      obtain ⟨m1, n⟩ := res
      simp only at hst
      cases hst
      have hevo := hok.evo
      simp only at hevo
      have hfr : m1.bump.freed = s.m.freed := by
        have : m1 = (tick cfg s.m weak c.pc).1 := by rw [htk]
        rw [this]
        exact tick_freed cfg s.m weak c.pc
      have hWid : ∀ lp, W s.m.clock = some lp → lp.id = c.inv := by
        intro lp hl
        have := hok.lp
        rw [hl] at this
        exact this.1
      have hWo : ∀ lp, W s.m.clock = some lp → lp.id < s.m.clock ∧
          ∀ t' c', t' ≠ t → (s.thr t').run = some c' → lp.id ≠ c'.inv := by
        intro lp hl
        have e := hWid lp hl
        refine ⟨by omega, fun t' c' hne hc' he => hne (h.inj t' t c' c hc' hc (by omega))⟩
      have hth0 := (h.thr t)
      have hn := hok.next
      simp only at hn
      refine ⟨h.build hok.inv hA' hevo hfr ?_ ?_ ?_ hWo, ?_⟩
      · -- the thread itself
        cases n with
        | goto pc ran =>
          refine ⟨hth0.noFail, ?_, ?_, ?_⟩
          · intro p' hp'; have := hth0.pinlt p' hp'; rw [hevo.clock]; omega
          · intro c' hc'
            cases hc'
            exact ⟨⟨p, hp, hpi⟩, by rw [hevo.clock]; show c.inv < _; omega, hn.1, hn.2⟩
          · intro a ha
            obtain ⟨p', h5, h6⟩ := hth0.refs a ha
            exact ⟨p', h5, h6.evo hevo (Nat.le_of_lt (hth0.pinlt p' h5))⟩
        | ret r refs =>
          refine ⟨hth0.noFail, ?_, ?_, ?_⟩
          · intro p' hp'; have := hth0.pinlt p' hp'; rw [hevo.clock]; omega
          · intro c' hc'; cases hc'
          · intro a ha
            rcases List.mem_append.mp ha with h5 | h5
            · exact ⟨p, hp, (hn.1 a h5).mono hpi⟩
            · obtain ⟨p', h6, h7⟩ := hth0.refs a h5
              exact ⟨p', h6, h7.evo hevo (Nat.le_of_lt (hth0.pinlt p' h6))⟩
        | fail f => exact hn.elim
      · intro p' hp'
        cases n with
        | goto pc ran => exact Or.inl hp'
        | ret r refs => exact Or.inl hp'
        | fail f => exact hn.elim
      · intro c' hc'
        cases n with
        | goto pc ran => cases hc'; exact Or.inl ⟨c, hc, rfl⟩
        | ret r refs => cases hc'
        | fail f => exact hn.elim
      · refine ⟨hevo, ?_, ?_, ?_⟩
        · have h5 := hok.lp
          cases hw : W s.m.clock with
          | none => rw [hw] at h5; exact h5
          | some lp =>
            rw [hw] at h5
            simp only at h5
            refine ⟨h5.2.2, t, c, hc, h5.1, h5.2.1, ?_, weak, rfl⟩
            rw [hW'] at hw
            simp only [lpOf] at hw
            split at hw
            · split at hw
              · next e => rw [e]; rfl
              · next e => rw [e]; rfl
              · cases hw
            · cases hw
        · intro id r he
          cases n <;> simp [Next.event] at he
        · intro id r he
          cases n with
          | goto pc ran => simp [Next.event] at he
          | ret r' refs =>
            simp [Next.event] at he
            obtain ⟨rfl, rfl⟩ := he
            exact ⟨t, c, refs, weak, rfl, hc, rfl, hn, by simp [Thread.apply], by rw [htk]⟩
          | fail f => exact hn.elim
  | abort t =>
    have hWn : W s.m.clock = none := hW
    simp only [Contrie.step] at hst
    split at hst
    · cases hst
    · next c hc =>
      cases hst
      have hevo := Evo.bump s.m
      refine ⟨h.build h.mem.bump hA' hevo rfl ⟨(h.thr t).noFail, ?_, ?_, ?_⟩ ?_ ?_ (by intro lp hl; rw [hWn] at hl; cases hl), ?_⟩
      · intro p hp; cases hp
      · intro c hc; cases hc
      · intro a ha; cases ha
      · intro p hp; cases hp
      · intro c hc; cases hc
      · refine ⟨hevo, by rw [hWn]; exact absb _ rfl, (by intro _ _ h; cases h), (by intro _ _ h; cases h)⟩
  | free a =>
    have hWn : W s.m.clock = none := hW
    simp only [Contrie.step] at hst
    cases hst
    have hevo : Evo s.m { s.m.bump with freed := upd s.m.freed a true } := .of_ghost rfl rfl rfl
    obtain ⟨τ, h1, h2⟩ := hen
    refine ⟨⟨?_, hA', ?_, ?_, ?_, h.inj⟩, ?_⟩
    · refine h.mem.of_ghost rfl rfl rfl rfl (Nat.le_succ _) ?_
      intro b hb
      by_cases e : b = a
      · subst e; exact ⟨τ, h1⟩
      · simp only [upd_other _ _ e] at hb; exact h.mem.freedRet b hb
    · intro b hb
      by_cases e : b = a
      · subst e; exact ⟨τ, h1, h2⟩
      · simp only [upd_other _ _ e] at hb; exact h.freed b hb
    · intro t; exact (h.thr t).other hevo (by intro lp hl; rw [hWn] at hl; cases hl)
    · intro τ' lp hτ hw
      have hτ' : τ' < s.m.clock + 1 := hτ
      by_cases e : τ' = s.m.clock
      · subst e; rw [hWn] at hw; cases hw
      · exact h.wid τ' lp (by omega) hw
    · refine ⟨hevo, by rw [hWn]; exact abs_mem rfl rfl, (by intro _ _ h; cases h), (by intro _ _ h; cases h)⟩
  | idle =>
    have hWn : W s.m.clock = none := hW
    simp only [Contrie.step] at hst
    cases hst
    have hevo := Evo.bump s.m
    refine ⟨⟨h.mem.bump, hA', ?_, ?_, ?_, h.inj⟩, ?_⟩
    · exact h.freed
    · intro t; exact (h.thr t).other hevo (by intro lp hl; rw [hWn] at hl; cases hl)
    · intro τ' lp hτ hw
      have hτ' : τ' < s.m.clock + 1 := hτ
      by_cases e : τ' = s.m.clock
      · subst e; rw [hWn] at hw; cases hw
      · exact h.wid τ' lp (by omega) hw
    · refine ⟨hevo, by rw [hWn]; exact absb _ rfl, (by intro _ _ h; cases h), (by intro _ _ h; cases h)⟩
end
end Contrie
