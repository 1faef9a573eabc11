import Verif.Model.Coherent
import Verif.Model.Hostile
/-
Weak memory and misbehaving user code together.

The memory is that of `Verif/Model/Coherent.lean`: loads may return old values, sessions learn from each other only by
synchronising, the collector obeys crossbeam-epoch's contract only. The user code is that of `Verif/Model/Hostile.lean`: `Hash`, `Eq`
and `Borrow` answer arbitrarily, closures create elements of any key, every call of user code may panic.

Sessions, states, labels and happens-before are those of `Verif/Model/Coherent.lean`; every step takes in addition the answers user code gives
during this step.
-/
namespace Contrie
variable {K P : Type}

/-- Effect of a tick's outcome on the session; cf. `Thread.happly`: the assertion `src/raw/mod.rs:595` unwinds, every other failure is
recorded. -/
def CThread.wapply (th : CThread K P) (c : Call K P) : Next K P → CThread K P
  | .fail .shallowCollision => { th with pin := none, refs := [], run := none }
  | n => th.apply c n

/-- The step function of the machine; `none`: the label is not enabled; cf. `cstep`. `o`: the answers of user code during the step; `h`:
what hashing the key gives, if a call starts. -/
def wstep (s : CState K P) (o : Answers P) (h : BitVec 64) : CLabel K P → Option (CState K P × Option (Event K P))
  | .pin t =>
    let th := s.thr t
    match th.pin, th.failed with
    | none, none => some (s.next s.m t { th with pin := some s.m.clock, refs := [] }, none)
    | _, _ => none
  | .unpin t =>
    let th := s.thr t
    match th.pin, th.run, th.failed with
    | some _, none, none => some (s.next s.m t { th with pin := none, refs := [] }, none)
    | _, _, _ => none
  | .call t r =>
    let th := s.thr t
    match th.pin, th.run, th.failed with
    | some _, none, none =>
      some (s.next s.m t { th with run := some ⟨s.m.clock, r, hStartPC h r, 0, 0⟩ }, some (.inv s.m.clock r))
    | _, _, _ => none
  | .tick t weak τ =>
    let th := s.thr t
    match th.run with
    | none => none
    | some c =>
      let r := hTick o (s.seen c.pc τ) weak c.pc
      some (s.next (if τ = s.m.clock then r.1 else s.m) t
        ({ th with view := c.pc.look (s.seen c.pc τ) weak τ s.m.clock th.view }.wapply c r.2), r.2.event c.inv)
  | .abort t =>
    let th := s.thr t
    match th.run with
    | none => none
    | some _ => some (s.next s.m t { th with pin := none, refs := [], run := none }, none)
  | .sync t t' τ =>
    let th := s.thr t
    some (s.next s.m t { th with view := fun l => max (th.view l) (s.viewAt τ t' l) }, none)
  | .free a => some (s.next { s.m with freed := upd s.m.freed a true } 0 (s.thr 0), none)
  | .idle => some (s.next s.m 0 (s.thr 0), none)

/-- An execution of `len` steps, of arbitrarily many sessions, in any interleaving, starting with the empty trie; cf. `CExec`. `ans`, `hash`:
the answers of user code in each step. -/
structure WExec (K P : Type) where
  len : Nat
  st : Nat → CState K P
  lab : Nat → CLabel K P
  ans : Nat → Answers P
  hash : Nat → BitVec 64
  ev : Nat → Option (Event K P)
  init : st 0 = CState.init
  step : ∀ i, i < len → wstep (st i) (ans i) (hash i) (lab i) = some (st (i + 1), ev i)
  enabled : ∀ i, i < len → (lab i).enabled (st i)
  gc : ∀ i a, i < len → lab i = .free a → ∃ r tr weak τ, r < i ∧ lab r = .tick tr weak τ ∧
    (st r).m.retired a = none ∧ (st (r + 1)).m.retired a ≠ none ∧
    ∀ j t p, i ≤ j → j ≤ len → ((st j).thr t).pin = some p → HB lab len (tr, r + 1) (t, p + 1)

end Contrie
