import Verif.Model.Exec
/-
Guards of different collectors. The methods of `Raw` take a `&Guard` from the caller (`src/raw/mod.rs:392-397`, `:657`, `:687-692`, `:708`), and do not look where it comes from: it may be a guard
of the default collector (`crossbeam_epoch::pin()`), or of any other (`Collector::new().register().pin()`). What is unlinked by a call is handed to the collector of the guard of that call
(`pin.defer_destroy`, `:503`, `:546`, `:734`), and that collector waits for its own guards only.

Iterators (`src/raw/iterator.rs:65`) and all methods of `ConMap`, `CloneConMap` and `ConSet` (`crossbeam_epoch::pin()` in each of them) use the default collector.
-/
namespace Contrie
variable {K P : Type} [DecidableEq K]

/-- An execution with several collectors: as `Exec`, but for what collectors wait for. `coll t`: the collector that the guards of session `t` belong to. A node that was handed over in a step of
session `u` is destroyed only when every guard there is *of the collector of `u`* was taken after that. -/
structure MExec (cfg : Config K P) where
  coll : Nat → Nat
  st : Nat → State K P
  lab : Nat → Label K P
  ev : Nat → Option (Event K P)
  init : st 0 = State.init
  step : ∀ i, Contrie.step cfg (st i) (lab i) = some (st (i + 1), ev i)
  gc : ∀ i a, lab i = .free a → ∃ τ u weak, τ < i ∧ (st i).m.retired a = some τ ∧ lab τ = .tick u weak ∧
    ∀ t p, coll t = coll u → ((st i).thr t).pin = some p → τ < p
  wf : ∀ i, (lab i).WF cfg

end Contrie
