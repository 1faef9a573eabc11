import Verif.Model.Machine
/-
Executions of the machine.
-/
namespace Contrie
variable {K P : Type} [DecidableEq K]

/-- Does the request (possibly) change the map? -/
def Req.isUpdate : Req K P → Bool
  | .op (.get _) => false
  | .op _ => true
  | .isEmpty => false
  | .iter => false

/-- The contract the caller has to obey (only the closures of `get_or_insert_with` have one). -/
def Label.WF (cfg : Config K P) : Label K P → Prop
  | .call _ (.op o) => o.WF cfg.key
  | _ => True

/-- An execution: a sequence of steps of arbitrarily many sessions, in any interleaving, starting with the empty
trie. It is infinite, but `idle` steps are always possible, so finite executions are included (`Exec.ofList`).
`ev i` is what is observable of step `i`. -/
structure Exec (cfg : Config K P) where
  st : Nat → State K P
  lab : Nat → Label K P
  ev : Nat → Option (Event K P)
  init : st 0 = State.init
  step : ∀ i, Contrie.step cfg (st i) (lab i) = some (st (i + 1), ev i)
  enabled : ∀ i, (lab i).enabled (st i)
  wf : ∀ i, (lab i).WF cfg

/-- A finite run: the labels can be executed one after the other. -/
def runList (cfg : Config K P) : State K P → List (Label K P) → Option (State K P × List (Event K P))
  | s, [] => some (s, [])
  | s, l :: ls => match step cfg s l with
    | none => none
    | some (s', e) => match runList cfg s' ls with
      | none => none
      | some (s'', es) => some (s'', e.toList ++ es)

/-- All steps of a finite run obey the contracts of the collector and of the caller. -/
def RunOK (cfg : Config K P) : State K P → List (Label K P) → Prop
  | _, [] => True
  | s, l :: ls => l.enabled s ∧ l.WF cfg ∧ match step cfg s l with
    | none => False
    | some (s', _) => RunOK cfg s' ls

end Contrie
