import Verif.Model.Coherent
import Verif.Model.Fine
/-
The machine at the granularity of the code (`Verif/Model/Fine.lean`), under weak memory (`Verif/Model/Coherent.lean`).

As in `Verif/Model/Fine.lean`, an atomic access and what the code does between it and the next one are two steps of a session, with anything happening in between: other sessions store, retire, destroy; the
session itself synchronises with others. In particular the node that a compare-and-set has unlinked is handed to the collector some time after it was unlinked, and a call returns some time after its last access.

Simplification: the node that a compare-and-set is to publish is created together with the access (before it was published nobody else can know it; that it is created earlier, and by an allocator
that reuses memory, is in `Verif/Model/Fine.lean`).
-/
namespace Contrie
variable {K P : Type} [DecidableEq K]

/-- The state of `Verif/Model/Coherent.lean`, and for every session
* `got`: the access has been made; it has found this word, it did (or did not) store something, and this is the node it was to publish, if any. -/
structure FCState (K P : Type) where
  s : CState K P
  got : Nat → Option (Word × Bool × Option Nat)

/-- Empty trie, nobody pinned. -/
def FCState.init : FCState K P := ⟨CState.init, fun _ => none⟩

/-- Has session `t` unlinked a node that it has not handed to the collector yet? As `FThread.unlinked`. -/
def FCState.unlinked (f : FCState K P) (t : Nat) : Option Nat :=
  match f.got t, (f.s.thr t).run with
  | some (_, true, _), some c => c.pc.unlinks
  | _, _ => none

/-- The memory after the access: `m'` if it stored (with one more address used up if a node was published), otherwise as it was. -/
def Mem.stored (m m' : Mem P) (ok : Bool) (own : Option Nat) : Mem P :=
  if ok then { m' with next := if own.isSome then m.next + 1 else m.next } else m

/-- A step. `tick t weak τ`: the session makes its access, looking at the location as it was at instant `τ`; or, if it has made its access, does the rest (`src/raw/mod.rs`, `src/raw/iterator.rs`: see
`PC.fineAccess`, `PC.fineNext` for the lines), which looks at the memory as it is now. All other steps are those of `cstep`. -/
def fcstep (cfg : Config K P) (f : FCState K P) (l : CLabel K P) : Option (FCState K P × Option (Event K P)) :=
  match l with
  | .tick t weak τ =>
    let th := f.s.thr t
    match th.run with
    | none => none
    | some c =>
      match f.got t with
      | none =>
        let m := f.s.seen c.pc τ
        let new := c.pc.builds m
        let own := new.map (fun _ => f.s.m.next)
        match c.pc.fineAccess (m.create f.s.m.next new) weak own with
        | none => some (⟨f.s.next f.s.m t { th with run := none, failed := some .badAccess }, f.got⟩, none)
        | some (m', w, ok) =>
          some (⟨f.s.next (f.s.m.stored m' ok own) t { th with view := c.pc.look m weak τ f.s.m.clock th.view }, upd f.got t (some (w, ok, own))⟩, none)
      | some (w, ok, own) =>
        let n := c.pc.fineNext cfg f.s.m w ok own
        some (⟨f.s.next (if ok then f.s.m.handOver c.pc.unlinks else f.s.m) t (th.apply c n), upd f.got t none⟩, n.event c.inv)
  | .abort t =>
    match f.unlinked t with
    | some _ => none
    | none => (cstep cfg f.s (.abort t)).map (fun r => (⟨r.1, upd f.got t none⟩, r.2))
  | l => (cstep cfg f.s l).map (fun r => (⟨r.1, f.got⟩, r.2))

/-- What an access may look at: as in `Verif/Model/Coherent.lean`. The rest of a step looks at no location. -/
def CLabel.fenabled (f : FCState K P) (l : CLabel K P) : Prop :=
  match l with
  | .tick t _ _ => f.got t ≠ none ∨ l.enabled f.s
  | l => l.enabled f.s

/-- An execution of `len` steps: as `CExec`. A node is retired in the step in which it is handed to the collector. -/
structure FCExec (cfg : Config K P) where
  len : Nat
  st : Nat → FCState K P
  lab : Nat → CLabel K P
  ev : Nat → Option (Event K P)
  init : st 0 = FCState.init
  step : ∀ i, i < len → fcstep cfg (st i) (lab i) = some (st (i + 1), ev i)
  enabled : ∀ i, i < len → (lab i).fenabled (st i)
  wf : ∀ i, i < len → (lab i).WF cfg
  gc : ∀ i a, i < len → lab i = .free a → ∃ r tr weak τ, r < i ∧ lab r = .tick tr weak τ ∧
    (st r).s.m.retired a = none ∧ (st (r + 1)).s.m.retired a ≠ none ∧
    ∀ j t p, i ≤ j → j ≤ len → ((st j).s.thr t).pin = some p → HB lab len (tr, r + 1) (t, p + 1)

end Contrie
