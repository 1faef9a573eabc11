import Verif.Model.Borrow
import Verif.Model.Coherent
/-
The weak memory machine of `Verif/Model/Coherent.lean` with the user's own `Eq`, `Hash` and `Borrow`: what `Verif/Model/Borrow.lean` is to `Verif/Model/Machine.lean`.
-/
namespace Contrie
variable {P : Type}

/-- The step function of the machine; `none`: the label is not enabled; cf. `cstep`. -/
def bcstep (U : UserKeys P) (s : CState (Arg U) P) : CLabel (Arg U) P → Option (CState (Arg U) P × Option (Event (Arg U) P))
  | .pin t =>
    let th := s.thr t
    match th.pin, th.failed with
    | none, none => some (s.next s.m t { th with pin := some s.m.clock, refs := [] }, none)
    | _, _ => none
  | .unpin t =>
    let th := s.thr t
    match th.pin, th.run, th.failed with
    | some _, none, none => some (s.next s.m t { th with pin := none, refs := [] }, none)
    | _, _, _ => none
  | .call t r =>
    let th := s.thr t
    match th.pin, th.run, th.failed with
    | some _, none, none =>
      some (s.next s.m t { th with run := some ⟨s.m.clock, r, hStartPC (U.hashReq r) r, 0, 0⟩ }, some (.inv s.m.clock r))
    | _, _, _ => none
  | .tick t weak τ =>
    let th := s.thr t
    match th.run with
    | none => none
    | some c =>
      let r := bTick U c.req.typ (s.seen c.pc τ) weak c.pc
      some (s.next (if τ = s.m.clock then r.1 else s.m) t
        ({ th with view := c.pc.look (s.seen c.pc τ) weak τ s.m.clock th.view }.apply c r.2), r.2.event c.inv)
  | .abort t =>
    let th := s.thr t
    match th.run with
    | none => none
    | some _ => some (s.next s.m t { th with pin := none, refs := [], run := none }, none)
  | .sync t t' τ =>
    let th := s.thr t
    some (s.next s.m t { th with view := fun l => max (th.view l) (s.viewAt τ t' l) }, none)
  | .free a => some (s.next { s.m with freed := upd s.m.freed a true } 0 (s.thr 0), none)
  | .idle => some (s.next s.m 0 (s.thr 0), none)

/-- The contract of the caller; cf. `UserKeys.WF`. -/
def UserKeys.CWF (U : UserKeys P) : CLabel (Arg U) P → Prop
  | .call _ (.op (.getOrInsert a f)) => U.same (f a) a = true
  | _ => True

/-- An execution of `len` steps under weak memory; cf. `CExec`. -/
structure BCExec (U : UserKeys P) where
  len : Nat
  st : Nat → CState (Arg U) P
  lab : Nat → CLabel (Arg U) P
  ev : Nat → Option (Event (Arg U) P)
  init : st 0 = CState.init
  step : ∀ i, i < len → bcstep U (st i) (lab i) = some (st (i + 1), ev i)
  enabled : ∀ i, i < len → (lab i).enabled (st i)
  wf : ∀ i, i < len → U.CWF (lab i)
  gc : ∀ i a, i < len → lab i = .free a → ∃ r tr weak τ, r < i ∧ lab r = .tick tr weak τ ∧
    (st r).m.retired a = none ∧ (st (r + 1)).m.retired a ≠ none ∧
    ∀ j t p, i ≤ j → j ≤ len → ((st j).thr t).pin = some p → HB lab len (tr, r + 1) (t, p + 1)

end Contrie
