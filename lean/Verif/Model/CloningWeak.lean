import Verif.Model.Cloning
import Verif.Model.BorrowWeak
/-
The weak memory machine of `Verif/Model/BorrowWeak.lean` with the user's own `Clone` of elements: what `Verif/Model/Cloning.lean` is to `Verif/Model/Borrow.lean`.
-/
namespace Contrie
variable {A P : Type}

/-- The step function of the machine, user code answering `ask c` while call `c` is at work, and hashing the argument of a call `r` giving `hr r`; cf. `bcstep`, `oStep`. -/
def ocstep (ask : Call A P → Answers P) (hr : Req A P → BitVec 64) (s : CState A P) : CLabel A P → Option (CState A P × Option (Event A P))
  | .pin t =>
    let th := s.thr t
    match th.pin, th.failed with
    | none, none => some (s.next s.m t { th with pin := some s.m.clock, refs := [] }, none)
    | _, _ => none
  | .unpin t =>
    let th := s.thr t
    match th.pin, th.run, th.failed with
    | some _, none, none => some (s.next s.m t { th with pin := none, refs := [] }, none)
    | _, _, _ => none
  | .call t r =>
    let th := s.thr t
    match th.pin, th.run, th.failed with
    | some _, none, none =>
      some (s.next s.m t { th with run := some ⟨s.m.clock, r, hStartPC (hr r) r, 0, 0⟩ }, some (.inv s.m.clock r))
    | _, _, _ => none
  | .tick t weak τ =>
    let th := s.thr t
    match th.run with
    | none => none
    | some c =>
      let r := hTick (ask c) (s.seen c.pc τ) weak c.pc
      some (s.next (if τ = s.m.clock then r.1 else s.m) t
        ({ th with view := c.pc.look (s.seen c.pc τ) weak τ s.m.clock th.view }.apply c r.2), r.2.event c.inv)
  | .abort t =>
    let th := s.thr t
    match th.run with
    | none => none
    | some _ => some (s.next s.m t { th with pin := none, refs := [], run := none }, none)
  | .sync t t' τ =>
    let th := s.thr t
    some (s.next s.m t { th with view := fun l => max (th.view l) (s.viewAt τ t' l) }, none)
  | .free a => some (s.next { s.m with freed := upd s.m.freed a true } 0 (s.thr 0), none)
  | .idle => some (s.next s.m 0 (s.thr 0), none)

/-- What user code answers in a step in which the calls of `Clone::clone` give `cl`. -/
def Clones.asks (U : UserKeys P) {clones : P → P → Prop} (cl : Clones clones) (c : Call (Arg U) P) : Answers P :=
  { c.pc.asks U c.req.typ with clone := fun n p => (cl n p).1 }

/-- An execution of `len` steps under weak memory; `cl i` is what the calls of `Clone::clone` give in step `i`; cf. `BCExec`. -/
structure KCExec (U : UserKeys P) (clones : P → P → Prop) where
  len : Nat
  st : Nat → CState (Arg U) P
  lab : Nat → CLabel (Arg U) P
  cl : Nat → Clones clones
  ev : Nat → Option (Event (Arg U) P)
  init : st 0 = CState.init
  step : ∀ i, i < len → ocstep ((cl i).asks U) U.hashReq (st i) (lab i) = some (st (i + 1), ev i)
  enabled : ∀ i, i < len → (lab i).enabled (st i)
  wf : ∀ i, i < len → U.CWF (lab i)
  gc : ∀ i a, i < len → lab i = .free a → ∃ r tr weak τ, r < i ∧ lab r = .tick tr weak τ ∧
    (st r).m.retired a = none ∧ (st (r + 1)).m.retired a ≠ none ∧
    ∀ j t p, i ≤ j → j ≤ len → ((st j).thr t).pin = some p → HB lab len (tr, r + 1) (t, p + 1)

end Contrie
