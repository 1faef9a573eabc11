import Verif.Proof.Extra
import Verif.Proof.Seqs
/-
Vocabulary of the property theorems, and the concrete configurations used in the examples that show that the
hypotheses of the theorems can be met.
-/
namespace Contrie
variable {K P : Type} [DecidableEq K]

/-- The content of the map in a state: what following the pointers from the root leads to, for every key.
That this is the right notion is shown by `content_is_what_get_finds` (`Verif/Props/Lookup.lean`): a lookup that runs
alone returns exactly this. -/
def State.content (cfg : Config K P) (s : State K P) : AMap K P := s.m.abs cfg

/-- The content of the map at instant `i` of an execution. -/
def Exec.content {cfg : Config K P} (E : Exec cfg) (i : Nat) : AMap K P := (E.st i).content cfg

/-- In execution `E`, call `id` is invoked with request `r` (at instant `id`). -/
def Exec.Invoked {cfg : Config K P} (E : Exec cfg) (id : Nat) (r : Req K P) : Prop := E.ev id = some (.inv id r)

/-- In execution `E`, call `id` returns `r` in step `j`. -/
def Exec.Returns {cfg : Config K P} (E : Exec cfg) (j id : Nat) (r : Res P) : Prop := E.ev j = some (.res id r)

/-- Session `t` is executing call `c` at instant `i`. -/
def Exec.Running {cfg : Config K P} (E : Exec cfg) (i t : Nat) (c : Call K P) : Prop := ((E.st i).thr t).run = some c

/-! ### Configurations for examples -/

/-- Keys and values are numbers, the hash of `k` is `k`. -/
def exCfg : Config Nat (Nat × Nat) := ⟨Prod.fst, fun k => BitVec.ofNat 64 k⟩

/-- All keys collide. -/
def exCollide : Config Nat (Nat × Nat) := ⟨Prod.fst, fun _ => 0⟩

/-- `n` steps of session `t`. -/
def ticks (t n : Nat) : List (Label Nat (Nat × Nat)) := List.replicate n (.tick t false)

/-- Events of a run of the example configuration. -/
def exEvents (cfg : Config Nat (Nat × Nat)) (ls : List (Label Nat (Nat × Nat))) : List (Event Nat (Nat × Nat)) :=
  match runList cfg State.init ls with
  | none => []
  | some (_, es) => es

/-- Two sessions insert under the same key, their steps interleaved so that the second one wins the race, then one
more session removes the key while a fourth one looks it up. -/
def exRace : List (Label Nat (Nat × Nat)) :=
  [.pin 0, .pin 1, .pin 2, .pin 3, .call 0 (.op (.insert (7, 1))), .call 1 (.op (.insert (7, 2))),
   .tick 0 false, .tick 1 false, .tick 1 false, .tick 0 false, .tick 0 false, .tick 0 false,
   .call 2 (.op (.remove 7)), .call 3 (.op (.get 7)), .tick 2 false, .tick 3 false, .tick 2 false,
   .unpin 0, .unpin 1, .unpin 2, .unpin 3, .free 0, .free 1]

/-- Numbers of the results in a list of events, for checking examples by evaluation. -/
def resultsOf (es : List (Event Nat (Nat × Nat))) : List (Nat × Option (Nat × Nat)) :=
  es.filterMap (fun e => match e with
    | .res id (.op (.opt r)) => some (id, r)
    | .res id (.op (.eon r)) => some (id, some r.intoInner)
    | _ => none)

/-- The race is a run of the machine (with a collector acting at the end) ... -/
theorem exRace_ok : RunOK exCfg State.init exRace := runOK_of_check 4 (by decide)
/-- ... in which the four calls return `Some((7,2))` (the overwritten element), `None`, `Some((7,1))` and
`Some((7,1))`. -/
example : resultsOf (exEvents exCfg exRace) = [(5, none), (4, some (7, 2)), (13, some (7, 1)), (12, some (7, 1))] := by
  decide

end Contrie
