import Verif.Spec.UserKeys
/-
Specification of a map whose elements are cloned now and then.
-/
namespace Contrie
open scoped List
variable {A P : Type}

/-- `q` is `p`, or a clone of it, or a clone of a clone ... -/
inductive Descends (clones : P → P → Prop) (p : P) : P → Prop
  | refl : Descends clones p p
  | clone {q r : P} (h : Descends clones p q) (hc : clones q r) : Descends clones p r

/-- The results are the same, but for the elements in them being cloned. -/
def Ret.Descends (clones : P → P → Prop) : Ret P → Ret P → Prop
  | .opt none, .opt none => True
  | .opt (some p), .opt (some q) => Contrie.Descends clones p q
  | .eon (.existing p), .eon (.existing q) => Contrie.Descends clones p q
  | .eon (.new p), .eon (.new q) => Contrie.Descends clones p q
  | _, _ => False

/-- `L` is a linearization of the history `h` up to cloning: a run of a plain list, in which the very elements inserted are stored and returned; the calls of the history return (clones of clones of ...)
what they return there. Cf. `IsListLinearization`, from which only `complete` differs. -/
structure IsCloneLinearization (clones : P → P → Prop) (same : P → A → Bool) (own : P → A) (h : List (HEv A P)) (L : List (SOp A P)) (final : List P) : Prop where
  invoked : ∀ x ∈ L, HEv.inv x.id x.op ∈ h
  once : (L.map SOp.id).Nodup
  complete : ∀ id o r, HEv.inv id o ∈ h → HEv.res id r ∈ h → ∃ r0, ⟨id, o, r0⟩ ∈ L ∧ r0.Descends clones r
  realtime : L.Pairwise (fun x y => ¬ Before h y.id x.id)
  legal : ListLegal same own [] L final

/-- `L` is a causal linearization of the history `h` up to cloning; cf. `IsListCausalLinearization`, from which only `complete` differs. -/
structure IsCloneCausalLinearization (clones : P → P → Prop) (same : P → A → Bool) (own : P → A) (alike : A → A → Prop) (h : List (HEv A P))
    (hb : Nat → Nat → Prop) (L : List (SOp A P)) (final : List P) : Prop where
  invoked : ∀ x ∈ L, HEv.inv x.id x.op ∈ h
  once : (L.map SOp.id).Nodup
  complete : ∀ id o r, HEv.inv id o ∈ h → HEv.res id r ∈ h → ∃ r0, ⟨id, o, r0⟩ ∈ L ∧ r0.Descends clones r
  realtime : L.Pairwise (fun x y => x.Updates → ¬ Before h y.id x.id)
  causal : L.Pairwise (fun x y => alike (x.op.key own) (y.op.key own) → ¬ hb y.id x.id)
  legal : ListLegal same own [] L final

end Contrie
