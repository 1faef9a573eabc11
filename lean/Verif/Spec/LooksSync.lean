import Verif.Spec.Looks
/-
Specification of what iterations and `is_empty` see in programs that synchronise; cf. `Verif/Spec/Looks.lean`.
-/
namespace Contrie
variable {K P : Type}

/-- In the events `es`, call `id` is a finished iteration, or a call of `is_empty` that returned `true`. -/
def Seen (es : List (Event K P)) (id : Nat) : Prop := (∃ out, Event.res id (.list out) ∈ es) ∨ Event.res id (.bool true) ∈ es

/-- As `LooksFit`, but `is_empty` returning `true`, too, looks up each key for itself, as an iteration does that yields nothing. -/
structure KeywiseLooksFit [DecidableEq K] (key : P → K) (es : List (Event K P)) (L : List (SOp K P)) (pos : Nat → K → Nat) : Prop where
  iter : ∀ id out k, Event.res id (.list out) ∈ es → ∃ m, Look key es L (pos id k) id m ∧ out.filter (fun p => decide (key p = k)) = (m k).toList
  empty : ∀ id k, Event.res id (.bool true) ∈ es → ∃ m, Look key es L (pos id k) id m ∧ m k = none
  order : ∀ a b k k', Seen es a → Seen es b → EvBefore es a b → pos a k ≤ pos b k'

/-- The same with a list of elements, compared with arguments as the user says, and up to cloning (without cloning: `clones` never holds). -/
structure KeywiseListLooksFit (clones : P → P → Prop) (same : P → K → Bool) (own : P → K) (es : List (Event K P)) (L : List (SOp K P)) (pos : Nat → K → Nat) : Prop where
  iter : ∀ id out a, Event.res id (.list out) ∈ es → ∃ l o, ListLook same own es L (pos id a) id l ∧
    out.filter (fun p => same p a) = o.toList ∧ (Ret.opt (l.find? (fun p => same p a))).Descends clones (.opt o)
  empty : ∀ id a, Event.res id (.bool true) ∈ es → ∃ l, ListLook same own es L (pos id a) id l ∧ ∀ p ∈ l, same p a = false
  order : ∀ a b k k', Seen es a → Seen es b → EvBefore es a b → pos a k ≤ pos b k'

end Contrie
