import Verif.Spec.Linearizable
import Verif.Spec.Causal
/-
Specification of a map whose keys are compared by the user's own code: the collection is a list of elements, and everything is decided by one
comparison `same p a`, "is the key of element `p` equal to the argument `a`?". Nothing here refers to tries, nodes, threads, hashes or classes of keys.
-/
namespace Contrie
open scoped List
variable {A P : Type}

/-- One operation on the list `l` of elements: the new list and the result. `own p` is the key of element `p` as an argument. -/
def listStep (same : P → A → Bool) (own : P → A) (l : List P) : Op A P → List P × Ret P
  | .get a => (l, .opt (l.find? (fun p => same p a)))
  | .insert p => (l.filter (fun q => !same q (own p)) ++ [p], .opt (l.find? (fun q => same q (own p))))
  | .getOrInsert a f =>
    match l.find? (fun p => same p a) with
    | some e => (l, .eon (.existing e))
    | none => (l ++ [f a], .eon (.new (f a)))
  | .remove a => (l.filter (fun p => !same p a), .opt (l.find? (fun p => same p a)))

/-- `ListLegal same own l L l'`: executing the calls of `L` one after the other on the list `l` gives exactly the results recorded in `L`, and leads
to the list `l'`. -/
inductive ListLegal (same : P → A → Bool) (own : P → A) : List P → List (SOp A P) → List P → Prop
  | nil (l : List P) : ListLegal same own l [] l
  | cons {l l1 l2 : List P} {x : SOp A P} {L : List (SOp A P)} (h : listStep same own l x.op = (l1, x.ret))
      (hL : ListLegal same own l1 L l2) : ListLegal same own l (x :: L) l2

/-- `L` is a linearization of the history `h`; cf. `IsLinearization`, from which only `legal` differs. -/
structure IsListLinearization (same : P → A → Bool) (own : P → A) (h : List (HEv A P)) (L : List (SOp A P)) (final : List P) : Prop where
  invoked : ∀ x ∈ L, HEv.inv x.id x.op ∈ h
  once : (L.map SOp.id).Nodup
  complete : ∀ id o r, HEv.inv id o ∈ h → HEv.res id r ∈ h → ⟨id, o, r⟩ ∈ L
  realtime : L.Pairwise (fun x y => ¬ Before h y.id x.id)
  legal : ListLegal same own [] L final

/-- `L` is a causal linearization of the history `h`; cf. `IsCausalLinearization`, from which only `causal` and `legal` differ: `alike a b`: the arguments `a` and `b`
are both equal to the same key. -/
structure IsListCausalLinearization (same : P → A → Bool) (own : P → A) (alike : A → A → Prop) (h : List (HEv A P)) (hb : Nat → Nat → Prop)
    (L : List (SOp A P)) (final : List P) : Prop where
  invoked : ∀ x ∈ L, HEv.inv x.id x.op ∈ h
  once : (L.map SOp.id).Nodup
  complete : ∀ id o r, HEv.inv id o ∈ h → HEv.res id r ∈ h → ⟨id, o, r⟩ ∈ L
  realtime : L.Pairwise (fun x y => x.Updates → ¬ Before h y.id x.id)
  causal : L.Pairwise (fun x y => alike (x.op.key own) (y.op.key own) → ¬ hb y.id x.id)
  legal : ListLegal same own [] L final

/-- Call `id`, which returned in step `j`, had a look at the list somewhere in the sequence `L`, and saw that it was `m`. As for the arguments in question, this was not before a call that
happens before it, and not after a call that happens after it; cf. `Glimpse`. -/
def ListGlimpse (same : P → A → Bool) (own : P → A) (hb : Nat → Nat → Prop) (L : List (SOp A P)) (id j : Nat) (args : A → Prop) (m : List P) : Prop :=
  ∃ L1 L2, L = L1 ++ L2 ∧ ListLegal same own [] L1 m ∧
    (∀ y ∈ L2, args (y.op.key own) → ¬ hb y.id id) ∧
    (∀ x ∈ L1, args (x.op.key own) → ¬ hb id x.id) ∧
    (∀ x ∈ L1, x.Updates → x.id < j)

end Contrie
