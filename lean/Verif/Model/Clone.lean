import Verif.Model.Client
/-
`Clone::clone` of the maps as it is executed: what the pass over the old map yields is inserted into the new map while the pass is still going on.
-/
namespace Contrie
variable {K P : Type} [DecidableEq K]

/-- `new.extend(self)`, `src/map.rs:355`, `src/clonemap.rs:282`, that is, the loop `for n in self { new.insert(n) }` (`src/map.rs:382-384`,
`src/clonemap.rs:309-311`): the calls of `next` (of the pass over map `src`) and the insertions alternate. The thread is two sessions here - it has
two guards: the pass (session `t`), that yields `l`, and the insertions of `l` (session `t'`). They overlap in time between the instants `i` and `j`;
how is left open, which includes the alternation in the loop: an insertion after each element yielded. -/
def World.RunsLoop {key : P → K} (W : World key) (t t' src : Nat) (ins : List P → Prog K P Unit) (i j : Nat) : Prop :=
  ∃ l, W.Runs t (Prog.iter src (fun l => l)) i j l ∧ W.Runs t' (ins l) i j ()

end Contrie
