import Verif.Model.Borrow
/-
The machine of `Verif/Model/Borrow.lean` with the user's own `Clone` of elements: a clone has an equal key, and that is all there is known of it. (The elements of a `CloneConMap` are pairs of keys
and values, cloned by the user's code: `src/clonemap.rs:14-24`.) Every element of a data node is cloned whenever the node is replaced by one with other elements.
-/
namespace Contrie
variable {A P : Type}

/-- The step function of the machine, user code answering `ask c` while call `c` is at work, and hashing the argument of a call `r` giving `hr r`; cf. `bStep`. -/
def oStep (ask : Call A P → Answers P) (hr : Req A P → BitVec 64) (s : State A P) : Label A P → Option (State A P × Option (Event A P))
  | .pin t =>
    let th := s.thr t
    match th.pin, th.failed with
    | none, none => some (⟨s.m.bump, upd s.thr t { th with pin := some s.m.clock, refs := [] }⟩, none)
    | _, _ => none
  | .unpin t =>
    let th := s.thr t
    match th.pin, th.run, th.failed with
    | some _, none, none => some (⟨s.m.bump, upd s.thr t { th with pin := none, refs := [] }⟩, none)
    | _, _, _ => none
  | .call t r =>
    let th := s.thr t
    match th.pin, th.run, th.failed with
    | some _, none, none =>
      some (⟨s.m.bump, upd s.thr t { th with run := some ⟨s.m.clock, r, hStartPC (hr r) r, 0, 0⟩ }⟩, some (.inv s.m.clock r))
    | _, _, _ => none
  | .tick t weak =>
    let th := s.thr t
    match th.run with
    | none => none
    | some c =>
      let (m', n) := hTick (ask c) s.m weak c.pc
      some (⟨m'.bump, upd s.thr t (th.apply c n)⟩, n.event c.inv)
  | .abort t =>
    let th := s.thr t
    match th.run with
    | none => none
    | some _ => some (⟨s.m.bump, upd s.thr t { th with pin := none, refs := [], run := none }⟩, none)
  | .free a => some (⟨{ s.m.bump with freed := upd s.m.freed a true }, s.thr⟩, none)
  | .idle => some (⟨s.m.bump, s.thr⟩, none)

/-- What the calls of `Clone::clone` give in one step: the `n`-th call, of element `p`, one of the clones `p` may have. -/
abbrev Clones (clones : P → P → Prop) : Type := (n : Nat) → (p : P) → { q : P // clones p q }

/-- A finite run, `cl` being what the calls of `Clone::clone` give in each step. (`src/raw/mod.rs:293`, `:296`, `:628`, `:773`) -/
def kRun (U : UserKeys P) (clones : P → P → Prop) : State (Arg U) P → List (Label (Arg U) P × Clones clones) →
    Option (State (Arg U) P × List (Event (Arg U) P))
  | s, [] => some (s, [])
  | s, (l, cl) :: ls => match oStep (fun c => { c.pc.asks U c.req.typ with clone := fun n p => (cl n p).1 }) U.hashReq s l with
    | none => none
    | some (s', e) => match kRun U clones s' ls with
      | none => none
      | some (s'', es) => some (s'', e.toList ++ es)

/-- All steps of a finite run are possible and obey the contracts of the collector and of the caller; cf. `BRunOK`. -/
def KRunOK (U : UserKeys P) (clones : P → P → Prop) : State (Arg U) P → List (Label (Arg U) P × Clones clones) → Prop
  | _, [] => True
  | s, (l, cl) :: ls => l.enabled s ∧ U.WF l ∧
    match oStep (fun c => { c.pc.asks U c.req.typ with clone := fun n p => (cl n p).1 }) U.hashReq s l with
    | none => False
    | some (s', _) => KRunOK U clones s' ls

end Contrie
