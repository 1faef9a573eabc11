import Verif.Spec.Cloning
import Verif.Spec.Linearizable
import Verif.Model.Machine
/-
Specification of what iterations and `is_empty` see, in terms of a linearization of the calls about single keys.
-/
namespace Contrie
open scoped List
variable {K P : Type}

/-- In the sequence of events `es`, call `a` returned before call `b` was invoked (calls of whatever kind). -/
def EvBefore (es : List (Event K P)) (a b : Nat) : Prop := ∃ r r', [Event.res a r, Event.inv b r'] <+ es

/-- Between the first `n` calls of `L` and the others, where the map was `m`, call `id` could have a look at it: what is before was not invoked after `id` returned, what is after did not return before `id` was
invoked. -/
def Look [DecidableEq K] (key : P → K) (es : List (Event K P)) (L : List (SOp K P)) (n id : Nat) (m : AMap K P) : Prop :=
  Legal key AMap.empty (L.take n) m ∧ (∀ x ∈ L.take n, ¬ EvBefore es id x.id) ∧ ∀ y ∈ L.drop n, ¬ EvBefore es y.id id

/-- The same with a list of elements; cf. `IsListLinearization`. -/
def ListLook (same : P → K → Bool) (own : P → K) (es : List (Event K P)) (L : List (SOp K P)) (n id : Nat) (l : List P) : Prop :=
  ListLegal same own [] (L.take n) l ∧ (∀ x ∈ L.take n, ¬ EvBefore es id x.id) ∧ ∀ y ∈ L.drop n, ¬ EvBefore es y.id id

/-- `pos` says for every call and every key after how many calls of `L` the call looks this key up: an iteration gives what it finds, looking up each key once; `is_empty` looks all keys up at once if it returns
`true`; and the lookups of a call are before those of a call that was invoked after it returned. -/
structure LooksFit [DecidableEq K] (key : P → K) (es : List (Event K P)) (L : List (SOp K P)) (pos : Nat → K → Nat) : Prop where
  iter : ∀ id out k, Event.res id (.list out) ∈ es → ∃ m, Look key es L (pos id k) id m ∧ out.filter (fun p => decide (key p = k)) = (m k).toList
  empty : ∀ id, Event.res id (.bool true) ∈ es → ∃ n, (∀ k, pos id k = n) ∧ Look key es L n id AMap.empty
  order : ∀ a b k k', EvBefore es a b → pos a k ≤ pos b k'

/-- The same with a list of elements, compared with arguments as the user says. -/
structure ListLooksFit (same : P → K → Bool) (own : P → K) (es : List (Event K P)) (L : List (SOp K P)) (pos : Nat → K → Nat) : Prop where
  iter : ∀ id out a, Event.res id (.list out) ∈ es →
    ∃ l, ListLook same own es L (pos id a) id l ∧ out.filter (fun p => same p a) = (l.find? (fun p => same p a)).toList
  empty : ∀ id, Event.res id (.bool true) ∈ es → ∃ n, (∀ k, pos id k = n) ∧ ListLook same own es L n id []
  order : ∀ a b k k', EvBefore es a b → pos a k ≤ pos b k'

/-- The same up to cloning. -/
structure CloneLooksFit (clones : P → P → Prop) (same : P → K → Bool) (own : P → K) (es : List (Event K P)) (L : List (SOp K P)) (pos : Nat → K → Nat) : Prop where
  iter : ∀ id out a, Event.res id (.list out) ∈ es → ∃ l o, ListLook same own es L (pos id a) id l ∧
    out.filter (fun p => same p a) = o.toList ∧ (Ret.opt (l.find? (fun p => same p a))).Descends clones (.opt o)
  empty : ∀ id, Event.res id (.bool true) ∈ es → ∃ n, (∀ k, pos id k = n) ∧ ListLook same own es L n id []
  order : ∀ a b k k', EvBefore es a b → pos a k ≤ pos b k'

end Contrie
