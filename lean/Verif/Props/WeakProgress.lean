import Verif.Proof.CohSolo
import Verif.Props.Coherent
/-
C08 and C10 under weak memory.
-/
set_option linter.unusedSectionVars false
namespace Contrie
variable {K P : Type} [DecidableEq K] {cfg : Config K P} (E : CExec cfg)

/-- **C08** under weak memory: whatever old values its loads return, a `get` makes at most 17 of them before it
returns; and when its session has made 17 accesses since the invocation, it has returned (or unwound). -/
theorem C08_get_wait_free_weak {id t : Nat} {k : K} (h : E.lab id = .call t (.op (.get k))) :
    (∀ n, id < n → n ≤ E.len → 17 ≤ E.accesses t id n →
      (∃ j r, id < j ∧ j < n ∧ E.ev j = some (.res id r)) ∨ ∃ j, id < j ∧ j < n ∧ E.lab j = .abort t) ∧
    ∀ j r, j < E.len → E.ev j = some (.res id r) → E.accesses t id (j + 1) ≤ 17 := by
  constructor
  · intro n hn hl h17
    rcases E.fate h n hn hl with ⟨c, h1, h2, h3⟩ | ⟨j, h1, h2, r, h3⟩ | ⟨j, h1⟩
    · have := E.get_ticks hl h1 h3
      rw [E.ticks_eq hl t c h1, h2] at this
      omega
    · exact Or.inl ⟨j, r, h1, h2, h3⟩
    · exact Or.inr ⟨j, h1⟩
  · intro j r hj hr
    obtain ⟨t', weak, τ, c, g1, g2, g3, g4, g5, g6, g7⟩ := E.ret hj hr
    rw [h] at g5
    injection g5 with ht hq
    subst ht
    rw [CExec.accesses_succ]
    have := E.get_ticks (Nat.le_of_lt hj) g2 hq.symm
    rw [E.ticks_eq (Nat.le_of_lt hj) t c g2, g3] at this
    split <;> omega

/-- Non-vacuity: in `exIriw`, the call 24 (a `get` that sees an old value) returns in step 26 after 2 accesses. -/
example : exIriw.lab 24 = .call 2 (.op (.get 2)) ∧ exIriw.ev 26 = some (.res 24 (.op (.opt none))) ∧ exIriw.accesses 2 24 27 = 2 ∧
    exIriw.len = 33 := ⟨rfl, rfl, rfl, rfl⟩


/-- **C10** under weak memory: whatever an execution has been so far - whatever old values the call in progress of session `t`
has acted upon, in the middle of whatever calls the other sessions have been stopped - if the session runs alone and
its loads return present values from now on, its call returns after finitely many steps. -/
theorem C10_solo_termination_weak {t : Nat} {c : Call K P} (hc : ((E.st E.len).thr t).run = some c) :
    ∃ E' : CExec cfg, (E.len < E'.len ∧ (∀ i, i ≤ E.len → E'.st i = E.st i) ∧ (∀ i, i < E.len → E'.lab i = E.lab i)) ∧
      (∀ i, E.len ≤ i → i < E'.len → E'.lab i = .tick t false i) ∧
      (∃ r, E'.ev (E'.len - 1) = some (.res c.inv r)) ∧ ((E'.st E'.len).thr t).run = none := by
  obtain ⟨E', h1, h2, r, h3, h4, h5⟩ := CExec.solo_finishes _ E c rfl hc
  exact ⟨E', ⟨h3, h1.st, h1.lab⟩, h2, ⟨r, h4⟩, h5⟩

/-- Session 0 inserts key 1; session 1, which has not heard of it, inserts key 1, too, sees the root as it was at the
beginning, and has a CAS ahead of it that is bound to fail. -/
def exLate : List (CLabel Nat (Nat × Nat)) :=
  [.pin 0, .pin 1, .call 0 (.op (.insert (1, 10))), .tick 0 false 3, .tick 0 false 4, .call 1 (.op (.insert (1, 11))), .tick 1 false 0]

def exLateRun : CExec exCfg :=
  .ofRun exCfg exLate (by decide) (fun i a hi e => absurd e (no_free (cfg := exCfg) (by decide) hi))

/-- Non-vacuity of C10 under weak memory: the call of session 1 is in front of a CAS that fails. -/
example : ∃ c : Call Nat (Nat × Nat), ((exLateRun.st exLateRun.len).thr 1).run = some c ∧
    (c.pc.access .code).isSome = true ∧ c.pc.writes (exLateRun.st exLateRun.len).m false = false :=
  ⟨_, rfl, by decide, by decide⟩

end Contrie
