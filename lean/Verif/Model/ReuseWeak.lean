import Verif.Model.Coherent
import Verif.Model.Reuse
/-
The machine under weak memory (`Verif/Model/Coherent.lean`) with an allocator that reuses memory (`Verif/Model/Reuse.lean`). There, no two nodes ever have the same address; here every allocation
takes any address that is not in use at that moment. What a stale pointer points to is whatever is at the address now, a compare-and-set compares addresses and nothing else, and what a session knows
about a location (its view) is known about the address, whoever is there.
-/
namespace Contrie
variable {K P : Type} [DecidableEq K]

/-- The allocator has decided that the next allocation gets address `x`; cf. `Mem.offer`. -/
def CState.offer (s : CState K P) (x : Nat) : CState K P := { s with m := s.m.offer x }

/-- A step of the machine, when the allocator offers the address `x`: as `cstep`; `x` matters only if the step allocates (`owned_data`, `src/raw/mod.rs:236-240`, `Owned::new` at `:478`, `:607`). The
allocator does not offer addresses in use. `none`: the label is not enabled. -/
def crstep (cfg : Config K P) (s : CState K P) (x : Nat) (l : CLabel K P) : Option (CState K P × Option (Event K P)) :=
  if s.m.inUse x then none else cstep cfg (s.offer x) l

/-- An execution under weak memory with reuse of memory: as `CExec`; `addr i` is the address the allocator offers in step `i` (step `i` allocates there unless it leaves `next` as it is).

`fresh`: whoever has a pointer to a node sees no older content of its cells than what it had when it was published: in particular not what was in the same memory before. (That this visibility is really
given is the subject of `Verif/Model/Weak.lean`; that the memory was freed before it was allocated again is synchronisation inside of the allocator.)

`gc` is the contract of crossbeam-epoch, about the node that is at the address: if it was retired in step `r` by session `tr`, it is destroyed only if this retirement happens before every guard in force
then or later. -/
structure CRExec (cfg : Config K P) where
  len : Nat
  st : Nat → CState K P
  lab : Nat → CLabel K P
  addr : Nat → Nat
  ev : Nat → Option (Event K P)
  init : st 0 = CState.init
  step : ∀ i, i < len → crstep cfg (st i) (addr i) (lab i) = some (st (i + 1), ev i)
  enabled : ∀ i, i < len → (lab i).enabled ((st i).offer (addr i))
  fresh : ∀ i t weak τ c x k o, i < len → lab i = .tick t weak τ → ((st i).thr t).run = some c → c.pc.access .code = some (.slot x k, o) →
    ∀ j, τ ≤ j → j < i → addr j = x → (st (j + 1)).m.next = x
  wf : ∀ i, i < len → (lab i).WF cfg
  gc : ∀ i x, i < len → lab i = .free x → ∃ r tr weak τ, r < i ∧ lab r = .tick tr weak τ ∧
    (st r).m.retired x = none ∧ (st (r + 1)).m.retired x ≠ none ∧ (∀ j, r ≤ j → j < i → addr j = x → (st (j + 1)).m.next = x) ∧
    ∀ j t p, i ≤ j → j ≤ len → ((st j).thr t).pin = some p → HB lab len (tr, r + 1) (t, p + 1)

end Contrie
