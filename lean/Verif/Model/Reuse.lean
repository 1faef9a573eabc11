import Verif.Model.Exec
/-
The machine with an allocator that reuses memory. In `Verif/Model/Machine.lean` a node never gets an address another node has had before; here every allocation
(`owned_data`, `src/raw/mod.rs:236-240`, and `Owned::new` at `:478`, `:607`) takes any address that is not in use at that moment, whoever has used it before: what a stale pointer finds there is then
the new node, and a compare-and-set compares addresses and nothing else.

(Simplification, as in `Verif/Model/Machine.lean`: a node gets its address when it is published, not a little earlier when it is built. `Verif/Model/Fine.lean` does without this simplification; C50 proves
that it makes no difference.)
-/
namespace Contrie
variable {K P : Type} [DecidableEq K]

/-- There is a node at address `a`: allocated, and not yet destroyed. -/
def Mem.inUse (m : Mem P) (a : Nat) : Bool := (m.deref a).isSome

/-- The allocator has decided that the next allocation gets address `a`; whatever is left there of a destroyed node is forgotten. -/
def Mem.offer (m : Mem P) (a : Nat) : Mem P :=
  { m with next := a, mem := upd m.mem a none, retired := upd m.retired a none, freed := upd m.freed a false }

/-- A step of the machine, when the allocator offers the address `a`: as `step`; `a` matters only if the step allocates. The allocator does not offer addresses in use.
`none`: the label is not enabled. -/
def rstep (cfg : Config K P) (s : State K P) (a : Nat) (l : Label K P) : Option (State K P × Option (Event K P)) :=
  if s.m.inUse a then none else step cfg ⟨s.m.offer a, s.thr⟩ l

/-- An execution with reuse of memory: as `Exec`; `addr i` is the address the allocator offers in step `i`. -/
structure RExec (cfg : Config K P) where
  st : Nat → State K P
  lab : Nat → Label K P
  addr : Nat → Nat
  ev : Nat → Option (Event K P)
  init : st 0 = State.init
  step : ∀ i, rstep cfg (st i) (addr i) (lab i) = some (st (i + 1), ev i)
  enabled : ∀ i, (lab i).enabled (st i)
  wf : ∀ i, (lab i).WF cfg

end Contrie
