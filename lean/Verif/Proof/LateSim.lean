import Verif.Proof.Late
import Verif.Proof.CohBase
/-
Every execution in which closures take time is, but for the moments closures return, an execution in which they do not: the machine of
`Verif/Model/Machine.lean`, given in advance the elements the closures are going to return.
-/
set_option linter.unusedSectionVars false
namespace Contrie
variable {K P : Type} [DecidableEq K] {cfg : Config K P}

/-- With the closure that returns what is known to be returned. -/
def Req.resolve (r : Req K P) : Option P → Req K P
  | none => r
  | some p => r.withClosure (fun _ => p)

def PC.resolve (pc : PC K P) : Option P → PC K P
  | none => pc
  | some p => pc.withClosure (fun _ => p)

theorem PC.resolve_same (pc : PC K P) (o : Option P) (h : pc.pending = false) : pc.resolve o = pc := by
  cases o with
  | none => rfl
  | some p => exact pc.withClosure_same _ h

theorem startPC_resolve (r : Req K P) (o : Option P) : startPC cfg (r.resolve o) = (startPC cfg r).resolve o := by
  cases o with
  | none => rfl
  | some p => exact startPC_withClosure cfg _ r

theorem tick_resolve (o : Option P) (m : Mem P) (weak : Bool) (pc : PC K P) (ht : pc.Tidy) :
    (tick cfg m weak (pc.resolve o)).1 = (tick cfg m weak pc).1 ∧
    (∀ pc', (tick cfg m weak pc).2 = .goto pc' false → (tick cfg m weak (pc.resolve o)).2 = .goto (pc'.resolve o) false) ∧
    (∀ pc', (tick cfg m weak pc).2 = .goto pc' true → (tick cfg m weak pc).1 = m ∧ (∀ w, tick cfg m w (pc.resolve o) = tick cfg m weak (pc.resolve o)) ∧
      ∃ pc'', (tick cfg m weak (pc.resolve o)).2 = .goto pc'' true ∧ pc''.pending = false) ∧
    (∀ r refs, (tick cfg m weak pc).2 = .ret r refs → (tick cfg m weak (pc.resolve o)).2 = .ret r refs) ∧
    (∀ e, (tick cfg m weak pc).2 = .fail e → (tick cfg m weak (pc.resolve o)).2 = .fail e) := by
  cases o with
  | none =>
    refine ⟨rfl, fun _ h => h, fun pc' h => ?_, fun _ _ h => h, fun _ h => h⟩
    obtain ⟨-, -, h3⟩ := tick_goto h
    obtain ⟨-, h4, h5, h6⟩ := h3 rfl
    exact ⟨h5, h6, pc', h, h4⟩
  | some p =>
    obtain ⟨h1, h2⟩ := tick_like cfg (fun _ => p) m weak pc ht
    refine ⟨h1, fun pc' h => ?_, fun pc' h => ?_, fun r refs h => ?_, fun e h => ?_⟩
    · rw [h] at h2; exact h2
    · rw [h] at h2
      obtain ⟨-, pc'', h3, h4⟩ := h2
      obtain ⟨-, -, h5⟩ := tick_goto h
      obtain ⟨-, -, h6⟩ := tick_goto h3
      exact ⟨(h5 rfl).2.2.1, (h6 rfl).2.2.2, pc'', h3, h4⟩
    · rw [h] at h2; exact h2
    · rw [h] at h2; exact h2

/-! ### Invariants -/

/-- What holds of a call in progress at instant `n`. -/
structure LExec.CallOK (E : LExec cfg) (n t : Nat) (x : LCall K P) : Prop where
  old : x.call.inv < n
  lab : E.lab x.call.inv = .call t x.call.req
  tidy : x.call.pc.Tidy
  waits : ∀ m, x.closure = some m → ∃ pc, (tick cfg m false x.call.pc).2 = .goto pc true
  fresh : x.call.pc.pending = true → x.call.calls = 0
  ran : x.call.calls ≠ 0 → x.closure = none ∧ ∃ j p, x.call.inv < j ∧ j < n ∧ E.Closes j x.call.inv p

theorem LExec.clock (E : LExec cfg) (n : Nat) : (E.st n).m.clock = n := by
  induction n with
  | zero => rw [E.init]; rfl
  | succ n ih =>
    have hs := E.step n
    have hb : ∀ {m : Mem P}, m.clock = (E.st n).m.clock → m.bump.clock = n + 1 := by
      intro m h; simp only [Mem.bump, h, ih]
    cases hl : E.lab n with
    | pin t =>
      rw [hl] at hs; simp only [lstep] at hs
      split at hs
      · simp only [Option.some.injEq, Prod.mk.injEq] at hs; rw [← hs.1]; exact hb rfl
      · cases hs
    | unpin t =>
      rw [hl] at hs; simp only [lstep] at hs
      split at hs
      · simp only [Option.some.injEq, Prod.mk.injEq] at hs; rw [← hs.1]; exact hb rfl
      · cases hs
    | call t r =>
      rw [hl] at hs; simp only [lstep] at hs
      split at hs
      · simp only [Option.some.injEq, Prod.mk.injEq] at hs; rw [← hs.1]; exact hb rfl
      · cases hs
    | tick t weak =>
      rw [hl] at hs; simp only [lstep] at hs
      split at hs
      · simp only [Option.some.injEq, Prod.mk.injEq] at hs; rw [← hs.1]; exact hb (tick_clock _ _ _ _)
      · cases hs
    | closed t p =>
      rw [hl] at hs; simp only [lstep] at hs
      split at hs
      · simp only [Option.some.injEq, Prod.mk.injEq] at hs; rw [← hs.1]; exact hb rfl
      · cases hs
    | abort t =>
      rw [hl] at hs; simp only [lstep] at hs
      split at hs
      · cases hs
      · simp only [Option.some.injEq, Prod.mk.injEq] at hs; rw [← hs.1]; exact hb rfl
    | free a => rw [hl] at hs; simp only [lstep, Option.some.injEq, Prod.mk.injEq] at hs; rw [← hs.1]; exact hb rfl
    | idle => rw [hl] at hs; simp only [lstep, Option.some.injEq, Prod.mk.injEq] at hs; rw [← hs.1]; exact hb rfl

theorem Call.afterClosure_eq {c : Call K P} {m : Mem P} {p : P} {pc : PC K P} (ht : c.pc.Tidy) (hw : (tick cfg m false c.pc).2 = .goto pc true) :
    ∃ pc', (tick cfg m false (c.pc.resolve (some p))).2 = .goto pc' true ∧ pc'.pending = false ∧ pc'.Tidy ∧
      c.afterClosure cfg m p = { c with pc := pc', calls := c.calls + 1, ticks := c.ticks + 1 } := by
  obtain ⟨-, -, h3, -⟩ := tick_resolve (cfg := cfg) (some p) m false c.pc ht
  obtain ⟨-, -, pc', h4, h5⟩ := h3 pc hw
  refine ⟨pc', h4, h5, (tick_goto h4).1, ?_⟩
  simp only [PC.resolve] at h4
  simp only [Call.afterClosure, h4]

/-- Where the running calls of the next state come from. -/
theorem LExec.run_step (E : LExec cfg) (n t : Nat) {x : LCall K P} (h : ((E.st (n + 1)).thr t).run = some x) :
    ((∀ w, E.lab n ≠ .tick t w) ∧ (∀ p, E.lab n ≠ .closed t p) ∧ ((E.st n).thr t).run = some x) ∨
    (∃ r, E.lab n = .call t r ∧ x = ⟨⟨n, r, startPC cfg r, 0, 0⟩, none⟩) ∨
    (∃ weak c pc, E.lab n = .tick t weak ∧ ((E.st n).thr t).run = some ⟨c, none⟩ ∧ (tick cfg (E.st n).m weak c.pc).2 = .goto pc true ∧
      x = ⟨c, some (E.st n).m⟩) ∨
    (∃ weak c pc, E.lab n = .tick t weak ∧ ((E.st n).thr t).run = some ⟨c, none⟩ ∧ (tick cfg (E.st n).m weak c.pc).2 = .goto pc false ∧
      x = ⟨{ c with pc := pc, ticks := c.ticks + 1 }, none⟩) ∨
    (∃ p c m, E.lab n = .closed t p ∧ ((E.st n).thr t).run = some ⟨c, some m⟩ ∧ x = ⟨c.afterClosure cfg m p, none⟩) := by
  have hs := E.step n
  have hc := E.clock n
  have hk : ∀ {t' : Nat} {th : LThread K P} {m : Mem P}, E.st (n + 1) = ⟨m, upd (E.st n).thr t' th⟩ →
      (t = t' ∧ th.run = some x) ∨ (t ≠ t' ∧ ((E.st n).thr t).run = some x) := by
    intro t' th m e
    rw [e] at h
    simp only [upd] at h
    split at h
    · exact Or.inl ⟨by assumption, h⟩
    · exact Or.inr ⟨by assumption, h⟩
  cases hl : E.lab n with
  | pin t' =>
    rw [hl] at hs; simp only [lstep] at hs
    split at hs
    · simp only [Option.some.injEq, Prod.mk.injEq] at hs
      rcases hk hs.1.symm with ⟨rfl, e⟩ | ⟨-, e⟩
      · exact Or.inl ⟨by simp, by simp, e⟩
      · exact Or.inl ⟨by simp, by simp, e⟩
    · cases hs
  | unpin t' =>
    rw [hl] at hs; simp only [lstep] at hs
    split at hs
    · simp only [Option.some.injEq, Prod.mk.injEq] at hs
      rcases hk hs.1.symm with ⟨rfl, e⟩ | ⟨-, e⟩
      · exact Or.inl ⟨by simp, by simp, e⟩
      · exact Or.inl ⟨by simp, by simp, e⟩
    · cases hs
  | call t' r =>
    rw [hl] at hs; simp only [lstep] at hs
    split at hs
    · simp only [Option.some.injEq, Prod.mk.injEq] at hs
      rcases hk hs.1.symm with ⟨rfl, e⟩ | ⟨-, e⟩
      · simp only [Option.some.injEq] at e
        exact Or.inr (Or.inl ⟨r, rfl, by rw [← e, hc]⟩)
      · exact Or.inl ⟨by simp, by simp, e⟩
    · cases hs
  | tick t' weak =>
    rw [hl] at hs; simp only [lstep] at hs
    split at hs
    · rename_i c hrun
      simp only [Option.some.injEq, Prod.mk.injEq] at hs
      rcases hk hs.1.symm with ⟨rfl, e⟩ | ⟨hne, e⟩
      · refine Or.inr (Or.inr ?_)
        cases hn : (tick cfg (E.st n).m weak c.pc).2 with
        | goto pc ran =>
          rw [hn] at e
          cases ran with
          | true =>
            simp only [LThread.apply, Option.some.injEq] at e
            exact Or.inl ⟨weak, c, pc, rfl, hrun, hn, e.symm⟩
          | false =>
            simp only [LThread.apply, Option.some.injEq] at e
            exact Or.inr (Or.inl ⟨weak, c, pc, rfl, hrun, hn, e.symm⟩)
        | ret r refs => rw [hn] at e; cases e
        | fail f => rw [hn] at e; cases e
      · refine Or.inl ⟨fun w e' => hne ?_, by simp, e⟩
        simp only [LLabel.tick.injEq] at e'; exact e'.1.symm
    · cases hs
  | closed t' p =>
    rw [hl] at hs; simp only [lstep] at hs
    split at hs
    · rename_i c m hrun
      simp only [Option.some.injEq, Prod.mk.injEq] at hs
      rcases hk hs.1.symm with ⟨rfl, e⟩ | ⟨hne, e⟩
      · simp only [Option.some.injEq] at e
        exact Or.inr (Or.inr (Or.inr (Or.inr ⟨p, c, m, rfl, hrun, e.symm⟩)))
      · refine Or.inl ⟨by simp, fun p' e' => hne ?_, e⟩
        simp only [LLabel.closed.injEq] at e'; exact e'.1.symm
    · cases hs
  | abort t' =>
    rw [hl] at hs; simp only [lstep] at hs
    split at hs
    · cases hs
    · simp only [Option.some.injEq, Prod.mk.injEq] at hs
      rcases hk hs.1.symm with ⟨rfl, e⟩ | ⟨-, e⟩
      · cases e
      · exact Or.inl ⟨by simp, by simp, e⟩
  | free a =>
    rw [hl] at hs; simp only [lstep, Option.some.injEq, Prod.mk.injEq] at hs
    rw [← hs.1] at h
    exact Or.inl ⟨by simp, by simp, h⟩
  | idle =>
    rw [hl] at hs; simp only [lstep, Option.some.injEq, Prod.mk.injEq] at hs
    rw [← hs.1] at h
    exact Or.inl ⟨by simp, by simp, h⟩

theorem LExec.callOK (E : LExec cfg) (n : Nat) : ∀ t x, ((E.st n).thr t).run = some x → E.CallOK n t x := by
  induction n with
  | zero => intro t x h; rw [E.init] at h; cases h
  | succ n ih =>
    intro t x h
    rcases E.run_step n t h with ⟨-, -, h1⟩ | ⟨r, h1, rfl⟩ | ⟨weak, c, pc, h1, h2, h3, rfl⟩ | ⟨weak, c, pc, h1, h2, h3, rfl⟩ | ⟨p, c, m, h1, h2, rfl⟩
    · obtain ⟨a1, a2, a3, a4, a5, a6⟩ := ih t x h1
      exact ⟨by omega, a2, a3, a4, a5, fun h => ⟨(a6 h).1, by obtain ⟨-, j, p, b1, b2, b3⟩ := a6 h; exact ⟨j, p, b1, by omega, b3⟩⟩⟩
    · exact ⟨Nat.lt_succ_self n, h1, startPC_tidy cfg r, (fun m h => by cases h), fun _ => rfl, fun h => absurd rfl h⟩
    · obtain ⟨a1, a2, a3, a4, a5, a6⟩ := ih t _ h2
      obtain ⟨b1, b2, b3⟩ := tick_goto h3
      obtain ⟨b4, b5, b6, b7⟩ := b3 rfl
      refine ⟨by show c.inv < n + 1; have : c.inv < n := a1; omega, a2, a3, ?_, a5, fun h => absurd (a5 b4) h⟩
      intro m e
      simp only [Option.some.injEq] at e
      subst e
      refine ⟨pc, ?_⟩
      show (tick cfg (E.st n).m false c.pc).2 = _
      rw [b7 false]; exact h3
    · obtain ⟨a1, a2, a3, a4, a5, a6⟩ := ih t _ h2
      obtain ⟨b1, b2, b3⟩ := tick_goto h3
      refine ⟨by show c.inv < n + 1; have : c.inv < n := a1; omega, a2, b1, (fun m h => by cases h), fun h => a5 (b2 rfl h), fun h => ?_⟩
      obtain ⟨-, j, p, c1, c2, c3⟩ := a6 h
      exact ⟨rfl, j, p, c1, by omega, c3⟩
    · obtain ⟨a1, a2, a3, a4, a5, a6⟩ := ih t _ h2
      obtain ⟨pc, hw⟩ := a4 m rfl
      obtain ⟨pc', b1, b2, b3, b4⟩ := Call.afterClosure_eq (p := p) a3 hw
      rw [b4]
      have hi : c.inv < n := a1
      refine ⟨by show c.inv < n + 1; omega, a2, b3, (fun m h => by cases h), fun h => ?_, fun _ => ⟨rfl, n, p, hi, Nat.lt_succ_self n, t, h1, c, m, h2, rfl⟩⟩
      have : pc'.pending = true := h
      rw [b2] at this; cases this

/-- After a closure has returned the call neither runs it nor is going to. -/
theorem LExec.closes_done (E : LExec cfg) {i id : Nat} {p : P} (hc : E.Closes i id p) : ∀ n, i < n → ∀ t x, ((E.st n).thr t).run = some x →
    x.call.inv = id → x.closure = none ∧ x.call.pc.pending = false := by
  obtain ⟨t0, g1, c0, m0, g2, g3⟩ := hc
  have hid : id < i := by have := (E.callOK i t0 _ g2).old; simp only [g3] at this; exact this
  have htid : ∀ n t x, ((E.st n).thr t).run = some x → x.call.inv = id → t = t0 := by
    intro n t x h e
    have h1 := (E.callOK n t x h).lab
    have h2 := (E.callOK i t0 _ g2).lab
    simp only [g3] at h2
    rw [e, h2] at h1
    injection h1 with h1
    exact h1.symm
  intro n hn
  induction n with
  | zero => omega
  | succ n ih =>
    intro t x h e
    have ht := htid _ _ _ h e
    subst ht
    by_cases hin : i < n
    · rcases E.run_step n t h with ⟨-, -, h1⟩ | ⟨r, h1, rfl⟩ | ⟨weak, c, pc, h1, h2, h3, rfl⟩ | ⟨weak, c, pc, h1, h2, h3, rfl⟩ | ⟨p, c, m, h1, h2, rfl⟩
      · exact ih hin t x h1 e
      · simp only at e; omega
      · have h4 := (ih hin t _ h2 e).2
        have h5 := ((tick_goto h3).2.2 rfl).1
        simp only at h4
        rw [h5] at h4; cases h4
      · have h4 := (ih hin t _ h2 e).2
        refine ⟨rfl, ?_⟩
        cases hp : pc.pending with
        | false => rfl
        | true =>
          have := (tick_goto h3).2.1 rfl hp
          simp only at h4
          rw [this] at h4; cases h4
      · have ha : c.inv = id := by
          have hok := E.callOK n t _ h2
          obtain ⟨pc, hw⟩ := hok.waits m rfl
          obtain ⟨pc', b1, b2, b3, b4⟩ := Call.afterClosure_eq (p := p) hok.tidy hw
          rw [b4] at e; exact e
        have h4 := (ih hin t _ h2 ha).1
        cases h4
    · have hni : n = i := by omega
      subst hni
      rcases E.run_step n t h with ⟨-, h0, h1⟩ | ⟨r, h1, rfl⟩ | ⟨weak, c, pc, h1, h2, h3, rfl⟩ | ⟨weak, c, pc, h1, h2, h3, rfl⟩ | ⟨p', c, m, h1, h2, rfl⟩
      · exact absurd g1 (h0 p)
      · rw [g1] at h1; cases h1
      · rw [g1] at h1; cases h1
      · rw [g1] at h1; cases h1
      · have hok := E.callOK n t _ h2
        obtain ⟨pc, hw⟩ := hok.waits m rfl
        obtain ⟨pc', b1, b2, b3, b4⟩ := Call.afterClosure_eq (p := p') hok.tidy hw
        rw [b4]
        exact ⟨rfl, b2⟩

theorem LExec.closes_unique (E : LExec cfg) {i j id : Nat} {p q : P} (h : E.Closes i id p) (h' : E.Closes j id q) : i = j ∧ p = q := by
  have hij : i = j := by
    rcases Nat.lt_trichotomy i j with hlt | e | hlt
    · obtain ⟨t, -, c, m, g1, g2⟩ := h'
      have := (E.closes_done h j hlt t _ g1 g2).1
      cases this
    · exact e
    · obtain ⟨t, -, c, m, g1, g2⟩ := h
      have := (E.closes_done h' i hlt t _ g1 g2).1
      cases this
  subst hij
  obtain ⟨t, a1, c, m, a2, a3⟩ := h
  obtain ⟨t', b1, c', m', b2, b3⟩ := h'
  rw [a1] at b1
  injection b1 with b1 b2
  exact ⟨rfl, b2⟩

/-- A closure that runs has been begun. -/
theorem LExec.inClosure_begun (E : LExec cfg) (n : Nat) : ∀ t id, E.InClosure n t id → ∃ b, id < b ∧ b < n ∧ E.Begins b id := by
  induction n with
  | zero => intro t id ⟨c, m, h, _⟩; rw [E.init] at h; cases h
  | succ n ih =>
    intro t id ⟨c, m, h, hid⟩
    rcases E.run_step n t h with ⟨-, -, h1⟩ | ⟨r, h1, e⟩ | ⟨weak, c', pc, h1, h2, h3, e⟩ | ⟨weak, c', pc, h1, h2, h3, e⟩ | ⟨p, c', m', h1, h2, e⟩
    · obtain ⟨b, b1, b2, b3⟩ := ih t id ⟨c, m, h1, hid⟩
      exact ⟨b, b1, by omega, b3⟩
    · cases e
    · injection e with e1 e2
      subst e1
      have := (E.callOK n t _ h2).old
      simp only [hid] at this
      exact ⟨n, this, Nat.lt_succ_self n, t, weak, c, m, h1, h2, hid, h⟩
    · cases e
    · cases e

theorem LExec.closes_begins (E : LExec cfg) {i id : Nat} {p : P} (h : E.Closes i id p) : ∃ b, id < b ∧ b < i ∧ E.Begins b id := by
  obtain ⟨t, -, h⟩ := h
  exact E.inClosure_begun i t id h

/-- After a closure has begun it is running, or is not going to run (again). -/
theorem LExec.begins_done (E : LExec cfg) {i id : Nat} (hc : E.Begins i id) : ∀ n, i < n → ∀ t x, ((E.st n).thr t).run = some x →
    x.call.inv = id → x.closure = none → x.call.pc.pending = false := by
  obtain ⟨t0, w0, c0, m0, g0, g1, g2, g3⟩ := hc
  have hid : id < i := by have := (E.callOK i t0 _ g1).old; simp only [g2] at this; exact this
  have htid : ∀ n t x, ((E.st n).thr t).run = some x → x.call.inv = id → t = t0 := by
    intro n t x h e
    have h1 := (E.callOK n t x h).lab
    have h2 := (E.callOK i t0 _ g1).lab
    simp only [g2] at h2
    rw [e, h2] at h1
    injection h1 with h1
    exact h1.symm
  intro n hn
  induction n with
  | zero => omega
  | succ n ih =>
    intro t x h e ecl
    have ht := htid _ _ _ h e
    subst ht
    by_cases hin : i < n
    · rcases E.run_step n t h with ⟨-, -, h1⟩ | ⟨r, h1, rfl⟩ | ⟨weak, c, pc, h1, h2, h3, rfl⟩ | ⟨weak, c, pc, h1, h2, h3, rfl⟩ | ⟨p, c, m, h1, h2, rfl⟩
      · exact ih hin t x h1 e ecl
      · simp only at e; omega
      · cases ecl
      · have h4 := ih hin t _ h2 e rfl
        cases hp : pc.pending with
        | false => rfl
        | true =>
          have := (tick_goto h3).2.1 rfl hp
          simp only at h4
          rw [this] at h4; cases h4
      · have hok := E.callOK n t _ h2
        obtain ⟨pc, hw⟩ := hok.waits m rfl
        obtain ⟨pc', b1, b2, b3, b4⟩ := Call.afterClosure_eq (p := p) hok.tidy hw
        rw [b4]; exact b2
    · have hni : n = i := by omega
      subst hni
      rw [g3] at h
      injection h with h
      rw [← h] at ecl
      cases ecl

theorem LExec.begins_pending (E : LExec cfg) {i id : Nat} (h : E.Begins i id) : ∃ t c, ((E.st i).thr t).run = some ⟨c, none⟩ ∧ c.inv = id ∧
    c.pc.pending = true := by
  obtain ⟨t, w, c, m, g0, g1, g2, g3⟩ := h
  refine ⟨t, c, g1, g2, ?_⟩
  rcases E.run_step i t g3 with ⟨h0, -, h1⟩ | ⟨r, h1, e⟩ | ⟨weak, c', pc, h1, h2, h3, e⟩ | ⟨weak, c', pc, h1, h2, h3, e⟩ | ⟨p, c', m', h1, h2, e⟩
  · exact absurd g0 (h0 w)
  · cases e
  · injection e with e1 e2
    subst e1
    exact ((tick_goto h3).2.2 rfl).1
  · cases e
  · cases e

theorem LExec.begins_unique (E : LExec cfg) {i j id : Nat} (h : E.Begins i id) (h' : E.Begins j id) : i = j := by
  rcases Nat.lt_trichotomy i j with hlt | e | hlt
  · obtain ⟨t, c, g1, g2, g3⟩ := E.begins_pending h'
    have := E.begins_done h j hlt t _ g1 g2 rfl
    simp only at this
    rw [g3] at this; cases this
  · exact e
  · obtain ⟨t, c, g1, g2, g3⟩ := E.begins_pending h
    have := E.begins_done h' i hlt t _ g1 g2 rfl
    simp only at this
    rw [g3] at this; cases this

/-! ### The simulation -/

/-- The call, with what its closure is going to return known (`F`); if it is running the closure, as if that had returned. -/
def LCall.image (cfg : Config K P) (F : Nat → Option P) (x : LCall K P) : Call K P :=
  let c : Call K P := { x.call with req := x.call.req.resolve (F x.call.inv), pc := x.call.pc.resolve (F x.call.inv) }
  match x.closure with
  | none => c
  | some m => match (tick cfg m false c.pc).2 with
    | .goto pc _ => { c with pc := pc, calls := c.calls + 1, ticks := c.ticks + 1 }
    | _ => c

def LThread.image (cfg : Config K P) (F : Nat → Option P) (th : LThread K P) : Thread K P :=
  ⟨th.pin, th.refs, th.run.map (LCall.image cfg F), th.failed⟩

def LState.image (cfg : Config K P) (F : Nat → Option P) (s : LState K P) : State K P := ⟨s.m, fun t => (s.thr t).image cfg F⟩

def LLabel.image (F : Nat → Option P) (n : Nat) : LLabel K P → Label K P
  | .pin t => .pin t
  | .unpin t => .unpin t
  | .call t r => .call t (r.resolve (F n))
  | .tick t w => .tick t w
  | .closed _ _ => .idle
  | .abort t => .abort t
  | .free a => .free a
  | .idle => .idle

def Event.image (F : Nat → Option P) : Event K P → Event K P
  | .inv id r => .inv id (r.resolve (F id))
  | .res id r => .res id r

theorem LState.image_upd (F : Nat → Option P) (s : LState K P) (m : Mem P) (t : Nat) (th : LThread K P) :
    (⟨m, upd s.thr t th⟩ : LState K P).image cfg F = ⟨m, upd (s.image cfg F).thr t (th.image cfg F)⟩ := by
  simp only [LState.image, State.mk.injEq, true_and]
  funext t'
  simp only [upd]
  split <;> rfl

theorem LCall.image_none (F : Nat → Option P) (c : Call K P) : (⟨c, none⟩ : LCall K P).image cfg F =
    { c with req := c.req.resolve (F c.inv), pc := c.pc.resolve (F c.inv) } := rfl

theorem LCall.image_some (F : Nat → Option P) (c : Call K P) {m : Mem P} {pc : PC K P} (ht : c.pc.Tidy) (hw : (tick cfg m false c.pc).2 = .goto pc true) :
    ∃ pc', (tick cfg m false (c.pc.resolve (F c.inv))).2 = .goto pc' true ∧ pc'.pending = false ∧ (⟨c, some m⟩ : LCall K P).image cfg F =
    { c with req := c.req.resolve (F c.inv), pc := pc', calls := c.calls + 1, ticks := c.ticks + 1 } := by
  obtain ⟨-, -, h3, -⟩ := tick_resolve (cfg := cfg) (F c.inv) m false c.pc ht
  obtain ⟨-, -, pc', h4, h5⟩ := h3 pc hw
  refine ⟨pc', h4, h5, ?_⟩
  simp only [LCall.image, h4]

theorem LExec.image_step (E : LExec cfg) (F : Nat → Option P) (hF : ∀ i id p, E.Closes i id p → F id = some p) (n : Nat) :
    Contrie.step cfg ((E.st n).image cfg F) ((E.lab n).image F n) = some ((E.st (n + 1)).image cfg F, (E.ev n).map (Event.image F)) := by
  have hs := E.step n
  have hc := E.clock n
  cases hl : E.lab n with
  | pin t =>
    rw [hl] at hs
    simp only [lstep] at hs
    simp only [LLabel.image, Contrie.step]
    split at hs
    · rename_i h1 h2
      simp only [Option.some.injEq, Prod.mk.injEq] at hs
      have g1 : (((E.st n).image cfg F).thr t).pin = none := h1
      have g2 : (((E.st n).image cfg F).thr t).failed = none := h2
      rw [g1, g2, ← hs.1, ← hs.2, LState.image_upd]
      simp only [LThread.image, Option.map]
      rw [h2]; rfl
    · cases hs
  | unpin t =>
    rw [hl] at hs
    simp only [lstep] at hs
    simp only [LLabel.image, Contrie.step]
    split at hs
    · rename_i h1 h2 h3
      simp only [Option.some.injEq, Prod.mk.injEq] at hs
      have g1 := h1
      have g2 : (((E.st n).image cfg F).thr t).run = none := by simp only [LState.image, LThread.image, h2, Option.map]
      have g3 : (((E.st n).image cfg F).thr t).failed = none := h3
      change (((E.st n).image cfg F).thr t).pin = _ at g1
      rw [g1, g2, g3, ← hs.1, ← hs.2, LState.image_upd]
      simp only [Option.map, LThread.image, h2, h3]; rfl
    · cases hs
  | call t r =>
    rw [hl] at hs
    simp only [lstep] at hs
    simp only [LLabel.image, Contrie.step]
    split at hs
    · rename_i h1 h2 h3
      simp only [Option.some.injEq, Prod.mk.injEq] at hs
      have g1 := h1
      have g2 : (((E.st n).image cfg F).thr t).run = none := by simp only [LState.image, LThread.image, h2, Option.map]
      have g3 : (((E.st n).image cfg F).thr t).failed = none := h3
      change (((E.st n).image cfg F).thr t).pin = _ at g1
      rw [g1, g2, g3, ← hs.1, ← hs.2, LState.image_upd]
      simp only [Option.map, LThread.image, LState.image, Event.image, LCall.image_none, hc, startPC_resolve, h1, h3]
    · cases hs
  | tick t weak =>
    rw [hl] at hs
    simp only [lstep] at hs
    simp only [LLabel.image, Contrie.step]
    split at hs
    · rename_i c hrun
      simp only [Option.some.injEq, Prod.mk.injEq] at hs
      have hok := E.callOK n t _ hrun
      have hr : (((E.st n).image cfg F).thr t).run = some { c with req := c.req.resolve (F c.inv), pc := c.pc.resolve (F c.inv) } := by
        simp only [LState.image, LThread.image, hrun, Option.map, LCall.image_none]
      rw [hr]
      simp only [Option.some.injEq, Prod.mk.injEq]
      obtain ⟨a1, a2, a3, a4, a5⟩ := tick_resolve (cfg := cfg) (F c.inv) (E.st n).m weak c.pc hok.tidy
      have hm : ((E.st n).image cfg F).m = (E.st n).m := rfl
      rw [hm, ← hs.1, ← hs.2, LState.image_upd, a1]
      have hev : ∀ x, (tick cfg (E.st n).m weak (c.pc.resolve (F c.inv))).2 = x → (tick cfg (E.st n).m weak c.pc).2.event c.inv = none →
          x.event c.inv = none → (tick cfg (E.st n).m weak (c.pc.resolve (F c.inv))).2.event c.inv =
            Option.map (Event.image F) ((tick cfg (E.st n).m weak c.pc).2.event c.inv) := by
        intro x h1 h2 h3; rw [h1, h2, h3]; rfl
      suffices h : (((E.st n).image cfg F).thr t).apply { c with req := c.req.resolve (F c.inv), pc := c.pc.resolve (F c.inv) }
          (tick cfg (E.st n).m weak (c.pc.resolve (F c.inv))).2 =
          ((((E.st n).thr t).apply (E.st n).m c (tick cfg (E.st n).m weak c.pc).2)).image cfg F ∧
          (tick cfg (E.st n).m weak (c.pc.resolve (F c.inv))).2.event c.inv = Option.map (Event.image F) ((tick cfg (E.st n).m weak c.pc).2.event c.inv) by
        rw [h.1]; exact ⟨rfl, h.2⟩
      cases hn : (tick cfg (E.st n).m weak c.pc).2 with
      | goto pc ran =>
        cases ran with
        | false =>
          rw [a2 pc hn]
          exact ⟨rfl, rfl⟩
        | true =>
          obtain ⟨b1, b2, pc', b3, b4⟩ := a3 pc hn
          obtain ⟨-, -, d1⟩ := tick_goto hn
          have hn' : (tick cfg (E.st n).m false c.pc).2 = .goto pc true := by rw [(d1 rfl).2.2.2 false]; exact hn
          obtain ⟨pc'', e1, -, e3⟩ := LCall.image_some F c hok.tidy hn'
          rw [b2 false, b3] at e1
          injection e1 with e1
          subst e1
          rw [b3]
          refine ⟨?_, rfl⟩
          simp only [LThread.apply, LThread.image, Option.map, e3, Thread.apply]
          rfl
      | ret r refs =>
        rw [a4 r refs hn]
        exact ⟨rfl, rfl⟩
      | fail e =>
        rw [a5 e hn]
        exact ⟨rfl, rfl⟩
    · cases hs
  | closed t p =>
    rw [hl] at hs
    simp only [lstep] at hs
    simp only [LLabel.image, Contrie.step, Option.some.injEq, Prod.mk.injEq]
    split at hs
    · rename_i c m hrun
      simp only [Option.some.injEq, Prod.mk.injEq] at hs
      have hok := E.callOK n t _ hrun
      obtain ⟨pc, hw⟩ := hok.waits m rfl
      have hcl : F c.inv = some p := hF n c.inv p ⟨t, hl, c, m, hrun, rfl⟩
      obtain ⟨pc', b1, b2, b3, b4⟩ := Call.afterClosure_eq (p := p) hok.tidy hw
      obtain ⟨pc'', e1, -, e3⟩ := LCall.image_some F c hok.tidy hw
      rw [hcl] at e1 e3
      simp only at b1 e1
      rw [b1] at e1
      injection e1 with e1
      subst e1
      rw [← hs.1, ← hs.2, LState.image_upd]
      refine ⟨?_, rfl⟩
      simp only [LState.image, State.mk.injEq, true_and]
      funext t'
      simp only [upd]
      split
      · rename_i ht
        subst ht
        simp only [LThread.image, hrun, Option.map, Thread.mk.injEq, true_and, and_true, Option.some.injEq]
        rw [e3, b4, LCall.image_none]
        simp only [PC.resolve_same pc' _ b2, hcl]
      · rfl
    · cases hs
  | abort t =>
    rw [hl] at hs
    simp only [lstep] at hs
    simp only [LLabel.image, Contrie.step]
    split at hs
    · cases hs
    · rename_i x h1
      simp only [Option.some.injEq, Prod.mk.injEq] at hs
      have g1 : (((E.st n).image cfg F).thr t).run = some (x.image cfg F) := by simp only [LState.image, LThread.image, h1, Option.map]
      rw [g1, ← hs.1, ← hs.2, LState.image_upd]; rfl
  | free a =>
    rw [hl] at hs
    simp only [lstep, Option.some.injEq, Prod.mk.injEq] at hs
    rw [← hs.1, ← hs.2]; rfl
  | idle =>
    rw [hl] at hs
    simp only [lstep, Option.some.injEq, Prod.mk.injEq] at hs
    rw [← hs.1, ← hs.2]; rfl

open Classical in
/-- What the closure of call `id` returns, if it ever does. -/
noncomputable def LExec.returned (E : LExec cfg) (id : Nat) : Option P :=
  if h : ∃ p i, E.Closes i id p then some h.choose else none

theorem LExec.returned_eq (E : LExec cfg) {i id : Nat} {p : P} (h : E.Closes i id p) : E.returned id = some p := by
  have hx : ∃ p i, E.Closes i id p := ⟨p, i, h⟩
  simp only [LExec.returned, dif_pos hx, Option.some.injEq]
  obtain ⟨j, hj⟩ := hx.choose_spec
  exact (E.closes_unique hj h).2

theorem LExec.closes_of_returned (E : LExec cfg) {id : Nat} {p : P} (h : E.returned id = some p) : ∃ i, E.Closes i id p := by
  simp only [LExec.returned] at h
  split at h
  · rename_i hx
    simp only [Option.some.injEq] at h
    rw [← h]; exact hx.choose_spec
  · cases h

/-- The execution in which the closures take no time. -/
noncomputable def LExec.prompt (E : LExec cfg) : Exec cfg where
  st n := (E.st n).image cfg E.returned
  lab n := (E.lab n).image E.returned n
  ev n := (E.ev n).map (Event.image E.returned)
  init := by rw [E.init]; rfl
  step n := E.image_step E.returned (fun _ _ _ h => E.returned_eq h) n
  enabled n := by
    have := E.enabled n
    cases hl : E.lab n with
    | free a => rw [hl] at this; exact this
    | _ => trivial
  wf n := by
    have := E.wf n
    cases hl : E.lab n with
    | call t r =>
      rw [hl] at this
      simp only [LLabel.image]
      cases hr : E.returned n with
      | none => cases r with
        | op o => exact this
        | _ => trivial
      | some p =>
        cases r with
        | op o =>
          cases o with
          | getOrInsert k f =>
            show cfg.key p = k
            obtain ⟨i, t', h1, c, m, h2, h3⟩ := E.closes_of_returned hr
            have h4 := (E.callOK i t' _ h2).lab
            simp only [h3, hl] at h4
            injection h4 with h4 h5
            have h6 := E.wf i
            rw [h1] at h6
            exact h6 c (some m) k f h2 h5.symm
          | _ => exact this
        | _ => trivial
    | _ => trivial

end Contrie
