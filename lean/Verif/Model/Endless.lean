import Verif.Model.Wild
/-
Executions that never end, of the machine of `Verif/Model/Wild.lean` (weak memory, arbitrary user code) and of that of
`Verif/Model/Coherent.lean` (weak memory, user code that behaves). Only these can tell whether calls keep each other busy forever.
-/
namespace Contrie
variable {K P : Type}

/-- An endless execution; cf. `WExec`. The collector's contract is the same: a retirement happens before every guard in force when the node is
destroyed or later; at instant `j`, by the steps made until then. -/
structure WEndless (K P : Type) where
  st : Nat → CState K P
  lab : Nat → CLabel K P
  ans : Nat → Answers P
  hash : Nat → BitVec 64
  ev : Nat → Option (Event K P)
  init : st 0 = CState.init
  step : ∀ i, wstep (st i) (ans i) (hash i) (lab i) = some (st (i + 1), ev i)
  enabled : ∀ i, (lab i).enabled (st i)
  gc : ∀ i a, lab i = .free a → ∃ r tr weak τ, r < i ∧ lab r = .tick tr weak τ ∧
    (st r).m.retired a = none ∧ (st (r + 1)).m.retired a ≠ none ∧
    ∀ j t p, i ≤ j → ((st j).thr t).pin = some p → HB lab j (tr, r + 1) (t, p + 1)

/-- An endless execution with user code that behaves; cf. `CExec`. -/
structure CEndless [DecidableEq K] (cfg : Config K P) where
  st : Nat → CState K P
  lab : Nat → CLabel K P
  ev : Nat → Option (Event K P)
  init : st 0 = CState.init
  step : ∀ i, cstep cfg (st i) (lab i) = some (st (i + 1), ev i)
  enabled : ∀ i, (lab i).enabled (st i)
  wf : ∀ i, (lab i).WF cfg
  gc : ∀ i a, lab i = .free a → ∃ r tr weak τ, r < i ∧ lab r = .tick tr weak τ ∧
    (st r).m.retired a = none ∧ (st (r + 1)).m.retired a ≠ none ∧
    ∀ j t p, i ≤ j → ((st j).thr t).pin = some p → HB lab j (tr, r + 1) (t, p + 1)

end Contrie
