import Verif.Model.Collectors
import Verif.Props.Memory
import Verif.Proof.CohBase
import Verif.Props.Common
/-
C65: guards of different collectors. The raw interface accepts any guard; the claim that its calls are memory safe for whatever guards they are given is refuted: a call whose guard belongs to another
collector than that of the one who removes is not waited for, and touches destroyed memory. If at any time all guards in force belong to the same collector (which is so for `ConMap`,
`CloneConMap`, `ConSet`, where all of them belong to the default one), everything holds.
-/
set_option linter.unusedSectionVars false
namespace Contrie
variable {K P : Type} [DecidableEq K] {cfg : Config K P} (E : MExec cfg)

/-- At any time, all guards in force belong to the same collector. -/
def MExec.OneAtATime (E : MExec cfg) : Prop :=
  ∀ i t u p q, ((E.st i).thr t).pin = some p → ((E.st i).thr u).pin = some q → E.coll t = E.coll u

/-- What a step does to the guard of a session. -/
theorem step_guard {s s' : State K P} {l : Label K P} {e : Option (Event K P)} (h : step cfg s l = some (s', e)) (t : Nat) :
    s'.m.clock = s.m.clock + 1 ∧
    (((s'.thr t).pin = (s.thr t).pin ∧ ((s'.thr t).run ≠ none → (s.thr t).run ≠ none ∨ (s.thr t).pin ≠ none)) ∨
      (l = .pin t ∧ (s'.thr t).pin = some s.m.clock) ∨ ((s'.thr t).pin = none ∧ (s'.thr t).run = none)) := by
  cases l with
  | pin u =>
    simp only [step] at h
    split at h
    · simp only [Option.some.injEq, Prod.mk.injEq] at h
      rw [← h.1]
      refine ⟨rfl, ?_⟩
      by_cases hu : t = u
      · subst hu; exact Or.inr (Or.inl ⟨rfl, by simp⟩)
      · dsimp only; rw [upd_other _ _ hu]; exact Or.inl ⟨rfl, Or.inl⟩
    · cases h
  | unpin u =>
    simp only [step] at h
    split at h
    · next h1 h2 h3 =>
      simp only [Option.some.injEq, Prod.mk.injEq] at h
      rw [← h.1]
      refine ⟨rfl, ?_⟩
      by_cases hu : t = u
      · subst hu; exact Or.inr (Or.inr ⟨by simp, by simpa using h2⟩)
      · dsimp only; rw [upd_other _ _ hu]; exact Or.inl ⟨rfl, Or.inl⟩
    · cases h
  | call u r =>
    simp only [step] at h
    split at h
    · next h1 h2 h3 =>
      simp only [Option.some.injEq, Prod.mk.injEq] at h
      rw [← h.1]
      refine ⟨rfl, Or.inl ?_⟩
      by_cases hu : t = u
      · subst hu; exact ⟨by simp, fun _ => Or.inr (by rw [h1]; simp)⟩
      · dsimp only; rw [upd_other _ _ hu]; exact ⟨rfl, Or.inl⟩
    · cases h
  | tick u weak =>
    simp only [step] at h
    cases hr : (s.thr u).run with
    | none => simp only [hr] at h; cases h
    | some c =>
      simp only [hr, Option.some.injEq, Prod.mk.injEq] at h
      rw [← h.1]
      refine ⟨congrArg (· + 1) (tick_clock cfg s.m weak c.pc), Or.inl ?_⟩
      by_cases hu : t = u
      · subst hu
        simp only [upd_same]
        refine ⟨?_, fun _ => Or.inl (by rw [hr]; simp)⟩
        cases (tick cfg s.m weak c.pc).2 <;> rfl
      · dsimp only; rw [upd_other _ _ hu]; exact ⟨rfl, Or.inl⟩
  | abort u =>
    simp only [step] at h
    cases hr : (s.thr u).run with
    | none => simp only [hr] at h; cases h
    | some c =>
      simp only [hr, Option.some.injEq, Prod.mk.injEq] at h
      rw [← h.1]
      refine ⟨rfl, ?_⟩
      by_cases hu : t = u
      · subst hu; exact Or.inr (Or.inr ⟨by simp, by simp⟩)
      · dsimp only; rw [upd_other _ _ hu]; exact Or.inl ⟨rfl, Or.inl⟩
  | free a =>
    simp only [step, Option.some.injEq, Prod.mk.injEq] at h
    rw [← h.1]; exact ⟨rfl, Or.inl ⟨rfl, Or.inl⟩⟩
  | idle =>
    simp only [step, Option.some.injEq, Prod.mk.injEq] at h
    rw [← h.1]; exact ⟨rfl, Or.inl ⟨rfl, Or.inl⟩⟩

namespace MExec

theorem clock (i : Nat) : (E.st i).m.clock = i := by
  induction i with
  | zero => rw [E.init]; rfl
  | succ i ih => rw [(step_guard (E.step i) 0).1, ih]

/-- Calls are made with a guard. -/
theorem pinned (i t : Nat) (h : ((E.st i).thr t).run ≠ none) : ((E.st i).thr t).pin ≠ none := by
  induction i with
  | zero => rw [E.init] at h; exact absurd rfl h
  | succ i ih =>
    rcases (step_guard (E.step i) t).2 with ⟨h1, h2⟩ | ⟨-, h1⟩ | ⟨-, h1⟩
    · rw [h1]
      rcases h2 h with h3 | h3
      · exact ih h3
      · exact h3
    · rw [h1]; simp
    · exact absurd h1 h

/-- Since when a guard has been there. -/
theorem pin_since {i t p : Nat} (h : ((E.st i).thr t).pin = some p) :
    p < i ∧ E.lab p = .pin t ∧ ∀ j, p < j → j ≤ i → ((E.st j).thr t).pin = some p := by
  induction i with
  | zero => rw [E.init] at h; cases h
  | succ i ih =>
    rcases (step_guard (E.step i) t).2 with ⟨h1, -⟩ | ⟨h0, h1⟩ | ⟨h1, -⟩
    · rw [h1] at h
      obtain ⟨h2, h3, h4⟩ := ih h
      refine ⟨by omega, h3, fun j hj hj' => ?_⟩
      rcases Nat.lt_or_eq_of_le hj' with h5 | rfl
      · exact h4 j hj (by omega)
      · rw [h1]; exact h
    · rw [h1, E.clock] at h
      obtain rfl : i = p := by injection h
      refine ⟨by omega, h0, fun j hj hj' => ?_⟩
      rw [show j = i + 1 by omega, h1, E.clock]
    · rw [h1] at h; cases h

end MExec

/-- **C65**, the part that holds. If at any time all guards in force belong to the same collector, the collectors keep the contract as if there were only one: it is an execution of
the machine that all the other claims are about. -/
theorem C65_one_at_a_time_partial (h : E.OneAtATime) : ∃ E' : Exec cfg, E'.st = E.st ∧ E'.lab = E.lab ∧ E'.ev = E.ev := by
  refine ⟨⟨E.st, E.lab, E.ev, E.init, E.step, fun i => ?_, E.wf⟩, rfl, rfl, rfl⟩
  cases hl : E.lab i with
  | free a =>
    obtain ⟨τ, u, weak, hτ, h1, h2, h3⟩ := E.gc i a hl
    refine ⟨τ, h1, fun t p hp => ?_⟩
    obtain ⟨h4, h5, h6⟩ := E.pin_since hp
    refine Nat.lt_of_not_le (fun hle => ?_)
    have hu := E.pinned τ u (by
      intro e
      have := E.step τ
      rw [h2] at this
      simp only [step, e] at this
      cases this)
    cases hq : ((E.st τ).thr u).pin with
    | none => exact hu hq
    | some q =>
      rcases Nat.lt_or_eq_of_le hle with hpτ | rfl
      · exact absurd (h3 t p (h τ t u p q (h6 τ hpτ (by omega)) hq) hp) (by omega)
      · rw [h2] at h5; cases h5
  | _ => trivial

/-- **C65**, the part that holds, spelled out: no call fails (in particular, none touches a destroyed node). -/
theorem C65_no_failure_partial (h : E.OneAtATime) (i t : Nat) : ((E.st i).thr t).failed = none := by
  obtain ⟨E', h1, -⟩ := C65_one_at_a_time_partial E h
  rw [← h1]; exact ((E'.inv i).thr t).noFail

/-- All guards of the default collector: a case of `OneAtATime`. (All methods of `ConMap`, `CloneConMap` and `ConSet`, and iterators.) -/
theorem C65_default_collector (c : Nat) (h : ∀ t, E.coll t = c) : E.OneAtATime := fun _ t u _ _ _ _ => by rw [h t, h u]

/-! ### Two collectors -/

/-- Session 1 inserts the keys 7 and 8 (there is an inner node now); session 0 looks 7 up, it has got as far as the inner node; session 1 removes 7, so that the inner node goes away, and
gives up its guard; its collector destroys the inner node. Then session 0 goes on. -/
def exTwoCollectors : List (Label Nat (Nat × Nat)) :=
  [.pin 0, .pin 1, .call 1 (.op (.insert (7, 1)))] ++ ticks 1 2 ++ [.call 1 (.op (.insert (8, 2)))] ++ ticks 1 5 ++
  [.call 0 (.op (.get 7)), .tick 0 false, .call 1 (.op (.remove 7))] ++ ticks 1 36 ++ [.unpin 1, .free 1, .tick 0 false]

theorem stAt_step {ls : List (Label K P)} {i : Nat} (h : (step cfg (stAt cfg ls i) (ls.getD i .idle)).isSome = true) :
    step cfg (stAt cfg ls i) (ls.getD i .idle) = some (stAt cfg ls (i + 1), evAt cfg ls i) := by
  cases hs : step cfg (stAt cfg ls i) (ls.getD i .idle) with
  | none => rw [hs] at h; cases h
  | some x => obtain ⟨s, e⟩ := x; simp only [stAt, evAt, hs]

/-- Sessions that do not occur have no guard. -/
theorem pin_stAt {ls : List (Label K P)} {t : Nat} (h : ∀ l ∈ ls, l.thread ≠ some t) (i : Nat) : ((stAt cfg ls i).thr t).pin = none := by
  induction i with
  | zero => rfl
  | succ i ih =>
    simp only [stAt]
    cases hs : step cfg (stAt cfg ls i) (ls.getD i .idle) with
    | none => exact ih
    | some x =>
      obtain ⟨s, e⟩ := x
      simp only
      rw [step_thread hs (t := t) ?_]
      · exact ih
      · rw [List.getD_eq_getElem?_getD]
        cases hi : ls[i]? with
        | none => simp [Label.thread]
        | some l => exact h l (List.mem_of_getElem? hi)

theorem getD_idle {ls : List (Label K P)} {i : Nat} (h : ls.length ≤ i) : ls.getD i .idle = .idle := by
  rw [List.getD_eq_getElem?_getD, List.getElem?_eq_none h]; rfl

/-- Does the collector keep its contract in step `i`? (when only sessions below `N` are used) -/
def collectsOKb (cfg : Config K P) (N : Nat) (coll : Nat → Nat) (ls : List (Label K P)) (i : Nat) : Bool :=
  match ls.getD i .idle with
  | .free a => match (stAt cfg ls i).m.retired a with
    | none => false
    | some τ => decide (τ < i) && match ls.getD τ .idle with
      | .tick u _ => (List.range N).all (fun t => decide (coll t ≠ coll u) || match ((stAt cfg ls i).thr t).pin with
        | none => true
        | some p => decide (τ < p))
      | _ => false
  | _ => true

/-- A checked run as an execution. -/
def MExec.ofRun (N : Nat) (coll : Nat → Nat) (ls : List (Label K P)) (h1 : ls.all (fun l => l.wfb cfg && (match l.thread with | none => true | some t => decide (t < N))) = true)
    (h2 : (List.range ls.length).all (fun i => (Contrie.step cfg (stAt cfg ls i) (ls.getD i .idle)).isSome && collectsOKb cfg N coll ls i) = true) : MExec cfg where
  coll := coll
  st := stAt cfg ls
  lab := fun i => ls.getD i .idle
  ev := evAt cfg ls
  init := rfl
  step := by
    intro i
    refine stAt_step ?_
    by_cases hi : i < ls.length
    · have := List.all_eq_true.1 h2 i (List.mem_range.2 hi)
      rw [Bool.and_eq_true] at this
      exact this.1
    · rw [getD_idle (Nat.le_of_not_lt hi)]; rfl
  gc := by
    intro i a h
    have hi : i < ls.length := by
      refine Nat.lt_of_not_le (fun hle => ?_)
      rw [getD_idle hle] at h; cases h
    have := List.all_eq_true.1 h2 i (List.mem_range.2 hi)
    rw [Bool.and_eq_true] at this
    have hc := this.2
    simp only [collectsOKb, h] at hc
    cases hr : (stAt cfg ls i).m.retired a with
    | none => rw [hr] at hc; cases hc
    | some τ =>
      simp only [hr, Bool.and_eq_true, decide_eq_true_eq] at hc
      obtain ⟨hc1, hc2⟩ := hc
      split at hc2
      · next u weak hu =>
        refine ⟨τ, u, weak, hc1, rfl, hu, fun t p ht hp => ?_⟩
        by_cases htN : t < N
        · have := List.all_eq_true.1 hc2 t (List.mem_range.2 htN)
          simpa [ht, hp] using this
        · rw [pin_stAt (t := t) (fun l hl e => ?_) i] at hp
          · cases hp
          · have := List.all_eq_true.1 h1 l hl
            rw [e] at this
            simp at this
            omega
      · cases hc2
  wf := by
    intro i
    rw [List.getD_eq_getElem?_getD]
    cases hi : ls[i]? with
    | none => trivial
    | some l =>
      have hl := List.all_eq_true.1 h1 l (List.mem_of_getElem? hi)
      rw [Bool.and_eq_true] at hl
      have hw := hl.1
      show l.WF cfg
      cases l with
      | call t r =>
        cases r with
        | op o => cases o <;> simp_all [Label.wfb, Label.WF, Op.WF]
        | _ => trivial
      | _ => trivial

set_option maxRecDepth 20000 in
/-- The guard of session 0 belongs to collector 0, that of session 1 to collector 1. -/
def exMixed : MExec exCfg := .ofRun 2 id exTwoCollectors (by decide) (by decide)

set_option maxRecDepth 20000 in
/-- **C65**, refuted: with guards of two collectors, a lookup touches a destroyed node, although the guard it was given has been in force all the time. -/
theorem C65_refuted : ∃ (E : MExec exCfg) (i t p : Nat), ((E.st i).thr t).failed = some .badAccess ∧ ∀ j, p < j → j ≤ i → ((E.st j).thr t).pin = some p := by
  refine ⟨exMixed, 53, 0, 0, by decide, ?_⟩
  have : ∀ j < 54, 0 < j → ((stAt exCfg exTwoCollectors j).thr 0).pin = some 0 := by decide
  exact fun j h1 h2 => this j (by omega) h1

set_option maxRecDepth 20000 in
/-- The same run with one collector cannot occur: the collector has to wait for session 0. -/
example : ¬ ∃ E : MExec exCfg, E.OneAtATime ∧ E.st = exMixed.st := by
  rintro ⟨E, h, he⟩
  have h1 := C65_no_failure_partial E h 53 0
  rw [he] at h1
  have h2 : ((stAt exCfg exTwoCollectors 53).thr 0).failed = some .badAccess := by decide
  rw [show exMixed.st 53 = stAt exCfg exTwoCollectors 53 from rfl, h2] at h1
  cases h1

/-- Two collectors, one after the other: session 1 (collector 1) inserts, removes, gives up its guard, nodes are destroyed; then session 0 (collector 0) looks 8 up. -/
def exTurns : List (Label Nat (Nat × Nat)) :=
  [.pin 1, .call 1 (.op (.insert (7, 1)))] ++ ticks 1 2 ++ [.call 1 (.op (.insert (8, 2)))] ++ ticks 1 5 ++
  [.call 1 (.op (.remove 7))] ++ ticks 1 36 ++ [.unpin 1, .free 1, .pin 0, .call 0 (.op (.get 8)), .tick 0 false, .free 0]

set_option maxRecDepth 20000 in
def exTurnsRun : MExec exCfg := .ofRun 2 id exTurns (by decide) (by decide)

set_option maxRecDepth 20000 in
/-- Non-vacuity of `C65_one_at_a_time_partial`: guards of two collectors, nodes are destroyed while a guard (of the other collector) is in force; the lookup finds 8. -/
theorem exTurns_one : exTurnsRun.OneAtATime := by
  intro i t u p q hp hq
  have hout : ∀ v, 2 ≤ v → ((stAt exCfg exTurns i).thr v).pin = none := by
    intro v hv
    refine pin_stAt (fun l hl e => ?_) i
    have : exTurns.all (fun l => match l.thread with | none => true | some t => decide (t < 2)) = true := by decide
    have := List.all_eq_true.1 this l hl
    rw [e] at this
    simp at this
    omega
  have late : ∀ d, ((stAt exCfg exTurns (53 + d)).thr 1).pin = none := by
    intro d
    induction d with
    | zero => decide
    | succ d ih =>
      rw [← Nat.add_assoc]
      simp only [stAt, getD_idle (show exTurns.length ≤ 53 + d from by show 53 ≤ 53 + d; omega), Contrie.step]
      exact ih
  have hex : ∀ j, ((stAt exCfg exTurns j).thr 0).pin = none ∨ ((stAt exCfg exTurns j).thr 1).pin = none := by
    intro j
    by_cases hj : j < 53
    · have : ∀ j < 53, ((stAt exCfg exTurns j).thr 0).pin = none ∨ ((stAt exCfg exTurns j).thr 1).pin = none := by decide
      exact this j hj
    · obtain ⟨d, rfl⟩ := Nat.exists_eq_add_of_le (Nat.le_of_not_lt hj)
      exact Or.inr (late d)
  have hp' : ((stAt exCfg exTurns i).thr t).pin = some p := hp
  have hq' : ((stAt exCfg exTurns i).thr u).pin = some q := hq
  have ht : t < 2 := Nat.lt_of_not_le (fun h => by rw [hout t h] at hp'; cases hp')
  have hu : u < 2 := Nat.lt_of_not_le (fun h => by rw [hout u h] at hq'; cases hq')
  show t = u
  have h01 : ∀ v, v < 2 → v = 0 ∨ v = 1 := by omega
  rcases h01 t ht with rfl | rfl <;> rcases h01 u hu with rfl | rfl
  · rfl
  · rcases hex i with h | h
    · rw [h] at hp'; cases hp'
    · rw [h] at hq'; cases hq'
  · rcases hex i with h | h
    · rw [h] at hq'; cases hq'
    · rw [h] at hp'; cases hp'
  · rfl

set_option maxRecDepth 20000 in
example : resultsOf (exEvents exCfg exTurns) = [(1, none), (4, none), (10, some (7, 1)), (50, some (8, 2))] := by decide

end Contrie
