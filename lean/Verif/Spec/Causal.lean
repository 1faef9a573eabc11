import Verif.Spec.Linearizable
/-
Specification: what is left of linearizability when reads may be stale. Nothing here refers to tries, nodes, threads or
memory.
-/
namespace Contrie
open scoped List
variable {K P : Type} [DecidableEq K]

/-- The calls that change the map: insertions, and removals and `get_or_insert`s that do something. -/
def SOp.Updates (x : SOp K P) : Prop :=
  match x.op, x.ret with
  | .insert _, _ => True
  | .getOrInsert _ _, .eon (.new _) => True
  | .remove _, .opt (some _) => True
  | _, _ => False

/-- `L` is a causal linearization of the history `h`, which leads to the map `final`: a sequence of invoked calls, each
once, that contains every completed call with the result it returned, and is a legal run of a plain map that starts empty.
Compared with a linearization, calls that change nothing may be placed too early, but neither before the calls on the same
key that happen before them (`hb x y`: call `x` returned before `y` was invoked, and the invoker of `y` knows of it) nor in
the future. -/
structure IsCausalLinearization (key : P → K) (h : List (HEv K P)) (hb : Nat → Nat → Prop) (L : List (SOp K P))
    (final : AMap K P) : Prop where
  invoked : ∀ x ∈ L, HEv.inv x.id x.op ∈ h
  once : (L.map SOp.id).Nodup
  complete : ∀ id o r, HEv.inv id o ∈ h → HEv.res id r ∈ h → ⟨id, o, r⟩ ∈ L
  /-- what changes the map is in real-time order, and nothing is placed after a change that was invoked later than it
  returned -/
  realtime : L.Pairwise (fun x y => x.Updates → ¬ Before h y.id x.id)
  /-- calls about one key are in causal order -/
  causal : L.Pairwise (fun x y => x.op.key key = y.op.key key → ¬ hb y.id x.id)
  legal : Legal key AMap.empty L final

/-- Call `id`, which returned in step `j`, had a look at the map somewhere in the sequence `L`, and saw that it was `m`. As
for the keys in question (`keys`), this was not before a call that happens before it, and not after a call
that happens after it. -/
def Glimpse (key : P → K) (hb : Nat → Nat → Prop) (L : List (SOp K P)) (id j : Nat) (keys : K → Prop) (m : AMap K P) : Prop :=
  ∃ L1 L2, L = L1 ++ L2 ∧ Legal key AMap.empty L1 m ∧
    (∀ y ∈ L2, keys (y.op.key key) → ¬ hb y.id id) ∧
    (∀ x ∈ L1, keys (x.op.key key) → ¬ hb id x.id) ∧
    (∀ x ∈ L1, x.Updates → x.id < j)

/-- Somebody who knew that certain calls had returned (`knows`) had a look at the map, before step `n`, somewhere in the sequence `L`, and saw that
it was `m`. As for the keys in question, this was not before a call known. -/
def GlimpseBy (key : P → K) (knows : Nat → Prop) (L : List (SOp K P)) (n : Nat) (keys : K → Prop) (m : AMap K P) : Prop :=
  ∃ L1 L2, L = L1 ++ L2 ∧ Legal key AMap.empty L1 m ∧ (∀ y ∈ L2, keys (y.op.key key) → ¬ knows y.id) ∧
    (∀ x ∈ L1, x.Updates → x.id < n)

end Contrie
