import Verif.Spec.Causal
import Verif.Spec.Looks
/-
Specification of what iterations and `is_empty` see together under weak memory; cf. `Verif/Spec/Looks.lean` and `Verif/Spec/Causal.lean`.
-/
namespace Contrie
variable {K P : Type}

/-- Call `id`, which returned in step `j`, had a look at the map between the first `p` calls of `L` and the others, and saw that it was `m`; cf. `Glimpse`. -/
def GlimpseAt [DecidableEq K] (key : P → K) (hb : Nat → Nat → Prop) (L : List (SOp K P)) (p id j : Nat) (keys : K → Prop) (m : AMap K P) : Prop :=
  Legal key AMap.empty (L.take p) m ∧
    (∀ y ∈ L.drop p, keys (y.op.key key) → ¬ hb y.id id) ∧
    (∀ x ∈ L.take p, keys (x.op.key key) → ¬ hb id x.id) ∧
    (∀ x ∈ L.take p, x.Updates → x.id < j)

/-- The same with a list of elements; cf. `ListGlimpse`. -/
def ListGlimpseAt (same : P → K → Bool) (own : P → K) (hb : Nat → Nat → Prop) (L : List (SOp K P)) (p id j : Nat) (args : K → Prop) (m : List P) : Prop :=
  ListLegal same own [] (L.take p) m ∧
    (∀ y ∈ L.drop p, args (y.op.key own) → ¬ hb y.id id) ∧
    (∀ x ∈ L.take p, args (x.op.key own) → ¬ hb id x.id) ∧
    (∀ x ∈ L.take p, x.Updates → x.id < j)

/-- Call `id` is an iteration that was finished in the first `n` steps, or a call of `is_empty` that returned `true` in them. -/
def Looked (ev : Nat → Option (Event K P)) (n id : Nat) : Prop :=
  ∃ j, j < n ∧ ((∃ out, ev j = some (.res id (.list out))) ∨ ev j = some (.res id (.bool true)))

/-- `pos` says for every iteration and every key after how many calls of `L` the iteration looks this key up; `is_empty` looks all keys up at once, if it returns `true`; and if one of these calls
happens before another one, it does not look any key up later than the other one. -/
structure CausalLooksFit [DecidableEq K] (key : P → K) (ev : Nat → Option (Event K P)) (n : Nat) (hb : Nat → Nat → Prop) (L : List (SOp K P)) (pos : Nat → K → Nat) : Prop where
  iter : ∀ id j out k, j < n → ev j = some (.res id (.list out)) →
    ∃ m, GlimpseAt key hb L (pos id k) id j (fun k' => k' = k) m ∧ out.filter (fun p => decide (key p = k)) = (m k).toList
  empty : ∀ id j, j < n → ev j = some (.res id (.bool true)) → ∃ p, (∀ k, pos id k = p) ∧ GlimpseAt key hb L p id j (fun _ => True) AMap.empty
  order : ∀ a b k, Looked ev n a → Looked ev n b → hb a b → pos a k ≤ pos b k

/-- The same with a list of elements, compared with arguments as the user says, and up to cloning (without cloning: `clones` never holds). -/
structure CausalListLooksFit (clones : P → P → Prop) (same : P → K → Bool) (own : P → K) (alike : K → K → Prop) (ev : Nat → Option (Event K P)) (n : Nat) (hb : Nat → Nat → Prop) (L : List (SOp K P))
    (pos : Nat → K → Nat) : Prop where
  iter : ∀ id j out a, j < n → ev j = some (.res id (.list out)) →
    ∃ m o, ListGlimpseAt same own hb L (pos id a) id j (alike a) m ∧ out.filter (fun p => same p a) = o.toList ∧ (Ret.opt (m.find? (fun p => same p a))).Descends clones (.opt o)
  empty : ∀ id j, j < n → ev j = some (.res id (.bool true)) → ∃ p, (∀ k, pos id k = p) ∧ ListGlimpseAt same own hb L p id j (fun _ => True) []
  order : ∀ a b k, Looked ev n a → Looked ev n b → hb a b → pos a k ≤ pos b k

end Contrie
