import Verif.Proof.HostileLive
import Verif.Proof.WildLive
import Verif.Proof.CohSolo
import Verif.Model.Endless
/-
The machine with weak memory and arbitrary user code: the work to be done becomes less.
-/
set_option linter.unusedSectionVars false
namespace Contrie
variable {K P : Type} [DecidableEq K]

theorem loc2_write (m : Mem P) (w : Word) (ℓ : Loc) (pc : PC K P) : pc.loc2 (m.write w ℓ) = pc.loc2 m := by
  have hl : (m.write w ℓ).left = m.left := by
    funext w' i
    simp only [Mem.left]
    cases hp : w'.ptr with
    | none => rfl
    | some a =>
      cases ℓ with
      | root => rfl
      | slot b j =>
        cases hm : m.mem b with
        | none => simp only [Mem.write, hm]
        | some nd =>
          cases nd with
          | data l => simp only [Mem.write, hm]
          | inner c q =>
            simp only [Mem.write, hm]
            by_cases e : a = b
            · subst e; simp only [upd_same, hm]
            · simp only [upd_other _ _ e]
  cases pc with
  | iterNext lv out =>
    simp only [PC.loc2]
    induction lv with
    | nil => rfl
    | cons y lv ih => obtain ⟨w, idx⟩ := y; simp only [rho, ih, hl]
  | _ => rfl

theorem LLe.unwrite {m : Mem P} {w : Word} {ℓ : Loc} {tk : Nat} {pc pc' : PC K P} (h : LLe (m.write w ℓ) tk pc pc') : LLe m tk pc pc' := by
  unfold LLe at h ⊢
  rw [loc2_write, loc2_write] at h
  exact h

theorem wapply_none (th : CThread K P) (c : Call K P) {n : Next K P} (h : ∀ pc ran, n ≠ .goto pc ran) : (th.wapply c n).run = none := by
  cases n with
  | goto pc ran => exact absurd rfl (h pc ran)
  | ret => rfl
  | fail f => cases f <;> rfl

/-- The session whose call a step concerns. -/
def CLabel.actor : CLabel K P → Option Nat
  | .call t _ => some t
  | .tick t _ _ => some t
  | .abort t => some t
  | _ => none

theorem wstep_other {s s' : CState K P} {o : Answers P} {hh : BitVec 64} {l : CLabel K P} {e : Option (Event K P)}
    (h : wstep s o hh l = some (s', e)) {u : Nat} (hu : l.actor ≠ some u) : (s'.thr u).run = (s.thr u).run := by
  cases l with
  | pin t0 =>
    simp only [wstep] at h
    split at h <;> simp only [Option.some.injEq, Prod.mk.injEq, reduceCtorEq] at h
    rw [← h.1]
    by_cases e : u = t0
    · subst e; simp [CState.next]
    · simp [CState.next, upd_other _ _ e]
  | unpin t0 =>
    simp only [wstep] at h
    split at h <;> simp only [Option.some.injEq, Prod.mk.injEq, reduceCtorEq] at h
    rw [← h.1]
    by_cases e : u = t0
    · subst e; simp [CState.next]
    · simp [CState.next, upd_other _ _ e]
  | call t0 r =>
    have e : u ≠ t0 := by intro e; exact hu (by rw [e]; rfl)
    simp only [wstep] at h
    split at h <;> simp only [Option.some.injEq, Prod.mk.injEq, reduceCtorEq] at h
    rw [← h.1]
    simp [CState.next, upd_other _ _ e]
  | tick t0 w o =>
    have e : u ≠ t0 := by intro e; exact hu (by rw [e]; rfl)
    simp only [wstep] at h
    split at h <;> simp only [Option.some.injEq, Prod.mk.injEq, reduceCtorEq] at h
    rw [← h.1]
    simp [CState.next, upd_other _ _ e]
  | abort t0 =>
    have e : u ≠ t0 := by intro e; exact hu (by rw [e]; rfl)
    simp only [wstep] at h
    split at h <;> simp only [Option.some.injEq, Prod.mk.injEq, reduceCtorEq] at h
    rw [← h.1]
    simp [CState.next, upd_other _ _ e]
  | sync t0 t1 τ =>
    simp only [wstep, Option.some.injEq, Prod.mk.injEq] at h
    rw [← h.1]
    by_cases e : u = t0
    · subst e; simp [CState.next]
    · simp [CState.next, upd_other _ _ e]
  | free a =>
    simp only [wstep, Option.some.injEq, Prod.mk.injEq] at h
    rw [← h.1]; simp [CState.next, upd_self]
  | idle =>
    simp only [wstep, Option.some.injEq, Prod.mk.injEq] at h
    rw [← h.1]; simp [CState.next, upd_self]

theorem wstep_quiet {s s' : CState K P} {o : Answers P} {hh : BitVec 64} {l : CLabel K P} {e : Option (Event K P)}
    (h : wstep s o hh l = some (s', e)) (hl : ∀ t w o, l ≠ .tick t w o) :
    s'.m.mem = s.m.mem ∧ s'.m.root = s.m.root ∧ s'.m.next = s.m.next ∧ s'.m.retired = s.m.retired := by
  cases l with
  | tick t w o => exact absurd rfl (hl t w o)
  | pin t0 =>
    simp only [wstep] at h; split at h <;> simp only [Option.some.injEq, Prod.mk.injEq, reduceCtorEq] at h
    rw [← h.1]; exact ⟨rfl, rfl, rfl, rfl⟩
  | unpin t0 =>
    simp only [wstep] at h; split at h <;> simp only [Option.some.injEq, Prod.mk.injEq, reduceCtorEq] at h
    rw [← h.1]; exact ⟨rfl, rfl, rfl, rfl⟩
  | call t0 r =>
    simp only [wstep] at h; split at h <;> simp only [Option.some.injEq, Prod.mk.injEq, reduceCtorEq] at h
    rw [← h.1]; exact ⟨rfl, rfl, rfl, rfl⟩
  | abort t0 =>
    simp only [wstep] at h; split at h <;> simp only [Option.some.injEq, Prod.mk.injEq, reduceCtorEq] at h
    rw [← h.1]; exact ⟨rfl, rfl, rfl, rfl⟩
  | sync t0 t1 τ => simp only [wstep, Option.some.injEq, Prod.mk.injEq] at h; rw [← h.1]; exact ⟨rfl, rfl, rfl, rfl⟩
  | free a => simp only [wstep, Option.some.injEq, Prod.mk.injEq] at h; rw [← h.1]; exact ⟨rfl, rfl, rfl, rfl⟩
  | idle => simp only [wstep, Option.some.injEq, Prod.mk.injEq] at h; rw [← h.1]; exact ⟨rfl, rfl, rfl, rfl⟩

theorem wstep_tick {s s' : CState K P} {o : Answers P} {hh : BitVec 64} {e : Option (Event K P)} {t : Nat} {weak : Bool} {τ : Nat}
    (h : wstep s o hh (.tick t weak τ) = some (s', e)) : ∃ c, (s.thr t).run = some c ∧
      (∀ pc ran, (hTick o (s.seen c.pc τ) weak c.pc).2 = .goto pc ran →
        (s'.thr t).run = some { c with pc := pc, calls := c.calls + (if ran then 1 else 0), ticks := c.ticks + 1 }) ∧
      ((∀ pc ran, (hTick o (s.seen c.pc τ) weak c.pc).2 ≠ .goto pc ran) → (s'.thr t).run = none) := by
  simp only [wstep] at h
  split at h
  · cases h
  · next c hr =>
    simp only [Option.some.injEq, Prod.mk.injEq] at h
    refine ⟨c, hr, ?_, ?_⟩
    · intro pc ran hx
      rw [← h.1, hx]; simp [CState.next, CThread.wapply, CThread.apply]
    · intro hx
      rw [← h.1]; simp only [CState.next, upd_same]; exact wapply_none _ _ hx

theorem wstep_call {s s' : CState K P} {o : Answers P} {hh : BitVec 64} {e : Option (Event K P)} {t : Nat} {r : Req K P}
    (h : wstep s o hh (.call t r) = some (s', e)) : (s.thr t).run = none ∧
      (s'.thr t).run = some ⟨s.m.clock, r, hStartPC hh r, 0, 0⟩ := by
  simp only [wstep] at h
  split at h <;> simp only [Option.some.injEq, Prod.mk.injEq, reduceCtorEq] at h
  next h1 h2 h3 => exact ⟨h2, by rw [← h.1]; simp [CState.next]⟩

theorem wstep_abort {s s' : CState K P} {o : Answers P} {hh : BitVec 64} {e : Option (Event K P)} {t : Nat}
    (h : wstep s o hh (.abort t) = some (s', e)) : (∃ c, (s.thr t).run = some c) ∧ (s'.thr t).run = none := by
  simp only [wstep] at h
  split at h <;> simp only [Option.some.injEq, Prod.mk.injEq, reduceCtorEq] at h
  next c h1 => exact ⟨⟨c, h1⟩, by rw [← h.1]; simp [CState.next]⟩

namespace WExec
variable (E : WExec K P)

theorem ctx0 {n : Nat} (h : E.WInv n) (hn : 0 < n) : HCtx (E.M n) 0 :=
  ⟨h.hist.inv n (Nat.le_refl _), by rw [h.hist.clock n (Nat.le_refl _)]; exact hn, fun _ _ => rfl⟩

theorem helps {n : Nat} (hn : n ≤ E.len) : ∀ t c, ((E.st n).thr t).run = some c → Helps (E.M n) c.pc := by
  induction n with
  | zero => intro t c hc; rw [E.init] at hc; cases hc
  | succ n ih =>
    intro t c' hc'
    have h := E.winv (n := n) (by omega)
    have h1 := E.winv hn
    have hevo : Evo (E.M n) (E.M (n + 1)) := h1.hist.evo n (by omega)
    have hst := E.step n hn
    by_cases ha : (E.lab n).actor = some t
    · cases hl : E.lab n with
      | tick t0 w τ =>
        rw [hl] at ha hst
        cases ha
        obtain ⟨c, g1, g2, g3⟩ := wstep_tick hst
        have hh := ih (by omega) t c g1
        have d := (h.did E hn hl g1).1
        cases hx : (hTick (E.ans n) ((E.st n).seen c.pc τ) w c.pc).2 with
        | goto pc ran =>
          rw [g2 pc ran hx] at hc'
          simp only [Option.some.injEq] at hc'
          subst hc'
          rw [hx] at d
          refine Helps.evo ?_ hevo
          cases d with
          | store ℓ o p w σ ha hτ hw hnx => exact hTick_helps hh hnx.symm
          | silent ha hnx => exact hTick_helps hh hnx.symm
          | load ℓ o p w mw σ ha hτ hw hnx hm hs hloc hl hmw hrd =>
            have hp : ∀ p ch i acc k, c.pc ≠ .prune p ch i acc k := by
              intro p ch i acc k e
              rw [e] at hw ha
              simp only [PC.writes, ha, hs.seen] at hw
              simp [PC.stores] at hw
            have hx : Helps mw pc := hTick_helps (hh.other hp) hnx.symm
            rw [hmw] at hx
            refine hx.unwrite ?_
            intro hcond
            have hat := h.hist.at_read hτ hloc hrd
            cases ℓ with
            | root =>
              have := hs.clean rfl
              rw [hcond] at this; cases this
            | slot a i =>
              obtain ⟨cs, q, g1, g2, g3⟩ := hat
              obtain ⟨cs', g4, g5⟩ := h.hist.inner hτ (Nat.le_refl _) g1
              have : (E.M n).freed a = false := rfl
              simp only [Mem.read, Mem.deref, this, g4]
              rw [← g3] at hcond
              have := g5 i hcond
              simp [this, g3]
        | ret r refs => rw [g3 (by intro pc ran e; rw [hx] at e; cases e)] at hc'; cases hc'
        | fail f => rw [g3 (by intro pc ran e; rw [hx] at e; cases e)] at hc'; cases hc'
      | call t0 r =>
        rw [hl] at ha hst
        cases ha
        rw [(wstep_call hst).2] at hc'
        simp only [Option.some.injEq] at hc'
        subst hc'
        exact helps_start _ r
      | abort t0 =>
        rw [hl] at ha hst
        cases ha
        rw [(wstep_abort hst).2] at hc'; cases hc'
      | _ => rw [hl] at ha; cases ha
    · rw [wstep_other hst ha] at hc'
      exact (ih (by omega) t c' hc').evo hevo

/-- The state as the sequentially consistent machine would have it. -/
def S (i : Nat) : State K P :=
  ⟨E.M i, fun t => ⟨((E.st i).thr t).pin, ((E.st i).thr t).refs, ((E.st i).thr t).run, ((E.st i).thr t).failed⟩⟩

theorem apart {n t : Nat} (hn : n < E.len) (hl : ∀ u, u ≠ t → (E.lab n).actor ≠ some u) : Apart (E.S n) (E.S (n + 1)) t where
  run := fun u hu => wstep_other (E.step n hn) (hl u hu)
  loc2 := fun u c hc => hloc2_evo (((E.winv (Nat.le_of_lt hn)).sess u).run c hc).pc ((E.winv hn).hist.evo n (by omega))

/-- A step that sees the present is a step of the sequentially consistent machine. -/
theorem Did.present {n t : Nat} {weak : Bool} {τ : Nat} {c : Call K P} {nx : Next K P} (d : E.Did n t weak τ c nx)
    (hp : ∀ ℓ, (E.M τ).read ℓ = (E.M n).read ℓ) :
    nx = (hTick (E.ans n) (E.M n) weak c.pc).2 ∧ E.M (n + 1) = (hTick (E.ans n) (E.M n) weak c.pc).1.bump := by
  cases d with
  | store ℓ o p w σ ha hτ hw hnx hm => exact ⟨hnx, hm⟩
  | silent ha hnx hm hq => exact ⟨hnx, by rw [hm, hq]⟩
  | load ℓ o p w mw σ ha hτ hw hnx hm hs hloc hl hmw hrd =>
    rw [hp] at hrd
    rw [write_same hrd] at hmw
    subst hmw
    exact ⟨hnx, by rw [hm, hTick_quiet _ _ weak hw]⟩

/-- A step of a call that sees the present. -/
theorem work_present {T : Finset Nat} {n t : Nat} (ht : t ∈ T) (hn : n < E.len) {τ : Nat} (hl : E.lab n = .tick t false τ)
    (hp : ∀ ℓ, (E.M τ).read ℓ = (E.M n).read ℓ) :
    Work.lt ((E.S (n + 1)).work T) ((E.S n).work T) ∨ ((E.S (n + 1)).work T = (E.S n).work T ∧
      (E.S (n + 1)).m.mem = (E.S n).m.mem ∧ (E.S (n + 1)).m.root = (E.S n).m.root ∧
      (E.S (n + 1)).ells T < (E.S n).ells T) := by
  have hst := E.step n hn
  rw [hl] at hst
  obtain ⟨c, hc, g2, g3⟩ := wstep_tick hst
  have hap : Apart (E.S n) (E.S (n + 1)) t := E.apart hn (by
    intro u hu; rw [hl]; simp only [CLabel.actor]; intro e; cases e; exact hu rfl)
  have h := E.winv (Nat.le_of_lt hn)
  have ci := (h.sess t).run c hc
  have d := (h.did E hn hl hc).1
  obtain ⟨h1, h2⟩ := d.present E hp
  cases hx : (hTick (E.ans n) ((E.st n).seen c.pc τ) false c.pc).2 with
  | ret r refs => exact Or.inl (work_end ht hap hc (g3 (by intro pc ran e; rw [hx] at e; cases e)))
  | fail f => exact Or.inl (work_end ht hap hc (g3 (by intro pc ran e; rw [hx] at e; cases e)))
  | goto pc ran =>
    have htk : hTick (E.ans n) (E.M n) false c.pc = ((hTick (E.ans n) (E.M n) false c.pc).1, .goto pc ran) := by
      rw [← hx, h1]
    generalize (hTick (E.ans n) (E.M n) false c.pc).1 = m' at h2 htk
    have hd := (hTick_good (E.ctx0 h (by have := ci.lt; omega)) (E.ans n) ci.pc (E.helps (Nat.le_of_lt hn) t c hc) htk).2
    exact work_tick ht hap hc h2 (g2 pc ran hx) hd

/-- A step of a call, whatever it sees. -/
theorem work_step {T : Finset Nat} {n t : Nat} (ht : t ∈ T) (hn : n < E.len) {τ : Nat} (hl : E.lab n = .tick t false τ) :
    Work.lt ((E.S (n + 1)).work T) ((E.S n).work T) ∨ ((E.S (n + 1)).work T = (E.S n).work T ∧
      (E.S (n + 1)).m.mem = (E.S n).m.mem ∧ (E.S (n + 1)).m.root = (E.S n).m.root) := by
  have hst := E.step n hn
  rw [hl] at hst
  obtain ⟨c, hc, g2, g3⟩ := wstep_tick hst
  have hap : Apart (E.S n) (E.S (n + 1)) t := E.apart hn (by
    intro u hu; rw [hl]; simp only [CLabel.actor]; intro e; cases e; exact hu rfl)
  have h := E.winv (Nat.le_of_lt hn)
  have ci := (h.sess t).run c hc
  have d := (h.did E hn hl hc).1
  have hg : ∀ key hash cur, c.pc = .get key hash cur → c.ticks ≤ 16 := by
    intro key hash cur e
    have := ci.pc
    rw [e] at this
    obtain ⟨_, d, h1, h2, -⟩ := this
    omega
  cases hx : (hTick (E.ans n) ((E.st n).seen c.pc τ) false c.pc).2 with
  | ret r refs => exact Or.inl (work_end ht hap hc (g3 (by intro pc ran e; rw [hx] at e; cases e)))
  | fail f => exact Or.inl (work_end ht hap hc (g3 (by intro pc ran e; rw [hx] at e; cases e)))
  | goto pc ran =>
    rw [hx] at d
    have hrun := g2 pc ran hx
    have load : E.M (n + 1) = (E.M n).bump → LLe (E.M n) c.ticks c.pc pc →
        Work.lt ((E.S (n + 1)).work T) ((E.S n).work T) ∨ ((E.S (n + 1)).work T = (E.S n).work T ∧
          (E.S (n + 1)).m.mem = (E.S n).m.mem ∧ (E.S (n + 1)).m.root = (E.S n).m.root) := by
      intro hm hll
      have e1 : (E.S (n + 1)).m.mem = (E.S n).m.mem := by show (E.M (n + 1)).mem = _; rw [hm]; rfl
      have e2 : (E.S (n + 1)).m.root = (E.S n).m.root := by show (E.M (n + 1)).root = _; rw [hm]; rfl
      have e3 : (E.S (n + 1)).m.next = (E.S n).m.next := by show (E.M (n + 1)).next = _; rw [hm]; rfl
      have e4 : (E.S (n + 1)).m.retired = (E.S n).m.retired := by show (E.M (n + 1)).retired = _; rw [hm]; rfl
      rcases work_load (T := T) (s := E.S n) (s' := E.S (n + 1)) ht hap hc e1 e2 e3 e4 hrun hll with g | g
      · exact Or.inl g
      · exact Or.inr ⟨g, e1, e2⟩
    cases d with
    | store ℓ o p w σ ha hτ hw hnx hm =>
      rcases E.work_present ht hn hl (by intro ℓ; rw [hτ]) with g | ⟨g1, g2, g3, -⟩
      · exact Or.inl g
      · exact Or.inr ⟨g1, g2, g3⟩
    | silent ha hnx hm hq => exact load hm (hTick_local _ _ _ hg hnx.symm)
    | load ℓ o p w mw σ ha hτ hw hnx hm hs hloc hl hmw hrd =>
      have := hTick_local _ _ _ hg hnx.symm
      rw [hmw] at this
      exact load hm this.unwrite

/-- A step of another kind. -/
theorem work_other {T : Finset Nat} {n : Nat} (hn : n < E.len) (hl : ∀ t w τ, E.lab n ≠ .tick t w τ)
    (hc : ∀ t ∈ T, ∀ r, E.lab n ≠ .call t r) :
    Work.lt ((E.S (n + 1)).work T) ((E.S n).work T) ∨ ((E.S (n + 1)).work T = (E.S n).work T ∧
      (E.S (n + 1)).m.mem = (E.S n).m.mem ∧ (E.S (n + 1)).m.root = (E.S n).m.root ∧
      (E.S (n + 1)).ells T = (E.S n).ells T) := by
  obtain ⟨q1, q2, q3, q4⟩ := wstep_quiet (E.step n hn) hl
  by_cases ha : ∃ t ∈ T, E.lab n = .abort t
  · obtain ⟨t, ht, ha⟩ := ha
    have hst := E.step n hn
    rw [ha] at hst
    have hap : Apart (E.S n) (E.S (n + 1)) t := E.apart hn (by
      intro u hu; rw [ha]; simp only [CLabel.actor]; intro e; cases e; exact hu rfl)
    obtain ⟨⟨c, hr⟩, h2⟩ := wstep_abort hst
    exact Or.inl (work_end ht hap hr h2)
  · right
    have hact : ∀ u ∈ T, (E.lab n).actor ≠ some u := by
      intro u hu e
      cases hlab : E.lab n with
      | tick t w o => exact hl t w o hlab
      | call t r => rw [hlab] at e; cases e; exact hc u hu r hlab
      | abort t => rw [hlab] at e; cases e; exact ha ⟨u, hu, hlab⟩
      | _ => rw [hlab] at e; cases e
    obtain ⟨h1, h2⟩ := work_same (T := T) (s := E.S n) (s' := E.S (n + 1)) q1 q2 q3 q4
      (fun u hu => wstep_other (E.step n hn) (hact u hu))
      (fun u c hc => hloc2_evo (((E.winv (Nat.le_of_lt hn)).sess u).run c hc).pc ((E.winv hn).hist.evo n (by omega)))
    exact ⟨h1, q1, q2, h2⟩

end WExec

namespace WEndless
variable (E : WEndless K P)

/-- The first `n` steps. -/
def upto (n : Nat) : WExec K P where
  len := n
  st := E.st
  lab := E.lab
  ans := E.ans
  hash := E.hash
  ev := E.ev
  init := E.init
  step := fun i _ => E.step i
  enabled := fun i _ => E.enabled i
  gc := by
    intro i a _ hl
    obtain ⟨r, tr, weak, τ, h1, h2, h3, h4, h5⟩ := E.gc i a hl
    exact ⟨r, tr, weak, τ, h1, h2, h3, h4, fun j t p hj hjn hp => (h5 j t p hj hp).mono hjn (fun _ _ => rfl)⟩

/-- The state as the sequentially consistent machine would have it. -/
def S (i : Nat) : State K P := (E.upto (i + 1)).S i

/-- A session below `N` that starts a call is one idler less; if no call ends, there are never more. -/
theorem idlers_step (N : Nat) {i : Nat} (hend : ∀ t, ((E.st i).thr t).run ≠ none → ((E.st (i + 1)).thr t).run ≠ none) :
    (E.S (i + 1)).idlers N < (E.S i).idlers N ∨ ((E.S (i + 1)).idlers N = (E.S i).idlers N ∧
      ∀ t, t < N → ∀ r, E.lab i ≠ .call t r) := by
  have hst := E.step i
  have hrun : ∀ j u, ((E.S j).thr u).run = ((E.st j).thr u).run := fun _ _ => rfl
  by_cases hx : ∃ t, t < N ∧ ∃ r, E.lab i = .call t r
  · obtain ⟨t, ht, r, hl⟩ := hx
    rw [hl] at hst
    left
    refine sum_lt_of (t := t) (by simpa using ht) ?_ ?_
    · intro u hu
      rw [hrun, hrun, wstep_other hst (u := u) (by simp only [CLabel.actor]; intro e; cases e; exact hu rfl)]
    · obtain ⟨h1, h2⟩ := wstep_call hst
      rw [hrun, hrun, h1, h2]; simp
  · right
    refine ⟨?_, fun t ht r e => hx ⟨t, ht, r, e⟩⟩
    refine Finset.sum_congr rfl (fun u hu => ?_)
    rw [hrun, hrun]
    by_cases ha : (E.lab i).actor = some u
    · cases hl : E.lab i with
      | tick t w o =>
        rw [hl] at ha hst
        cases ha
        obtain ⟨c, hc, -⟩ := wstep_tick hst
        have := hend u (by rw [hc]; simp)
        cases hr : ((E.st (i + 1)).thr u).run with
        | none => exact absurd hr this
        | some c' => rw [hc]; rfl
      | abort t =>
        rw [hl] at ha hst
        cases ha
        obtain ⟨⟨c, hr⟩, h2⟩ := wstep_abort hst
        exact absurd h2 (hend u (by rw [hr]; simp))
      | call t r => rw [hl] at ha; cases ha; exact absurd ⟨u, by simpa using hu, r, hl⟩ hx
      | _ => rw [hl] at ha; cases ha
    · rw [wstep_other hst ha]
end WEndless
end Contrie
