import Verif.Spec.Map
import Mathlib.Data.List.Nodup
/-
Specification of the wrapper types: what the calls of `ConMap`, `CloneConMap` and `ConSet` do to a plain map or set. Nothing here refers to tries,
nodes, threads or programs.
-/
namespace Contrie
variable {K P O V T : Type} [DecidableEq K]

/-- The last element of the list with key `k`. -/
def lastWith (key : P → K) (l : List P) (k : K) : Option P := (l.filter (fun p => key p = k)).getLast?

/-- The calls `ConMap` and `CloneConMap` have in common. `O` are key objects, `K` keys (key objects up to `Eq`), `V` values. -/
inductive MapCall (K O V : Type) where
  | insert (key : O) (value : V)
  | getOrInsert (key : O) (value : V)
  | getOrInsertWith (key : O) (create : Unit → V)
  | getOrInsertDefault (key : O)
  | get (key : K)
  | remove (key : K)
  | isEmpty
  | iter
  | extend (l : List (O × V))

/-- What these calls return; `P` is what stands for an element (`Arc<Element<K, V>>` or `(K, V)`). -/
inductive MapRet (P : Type) where
  | opt (r : Option P)
  | eon (r : ExistingOrNew P)
  | bool (b : Bool)
  | list (l : List P)
  | unit

/-- Look up `k`; if it is missing, bind it to `p`. -/
def GetOrInsertSpec (M : K → Option P) (k : K) (p : P) (r : MapRet P) (M' : K → Option P) : Prop :=
  match M k with
  | some e => r = .eon (.existing e) ∧ M' = M
  | none => r = .eon (.new p) ∧ M' = AMap.set M k (some p)

/-- On the map `M`, the call returns `r` and leaves the map `M'`. `eqv` is the key of a key object, `mk n key value` the `n`-th element the call creates. -/
def MapCall.Spec [Inhabited V] (eqv : O → K) (mk : Nat → O → V → P) (M : K → Option P) (c : MapCall K O V) (r : MapRet P) (M' : K → Option P) : Prop :=
  match c with
  | .insert key v => r = .opt (M (eqv key)) ∧ M' = AMap.set M (eqv key) (some (mk 0 key v))
  | .getOrInsert key v => GetOrInsertSpec M (eqv key) (mk 0 key v) r M'
  | .getOrInsertWith key f => GetOrInsertSpec M (eqv key) (mk 0 key (f ())) r M'
  | .getOrInsertDefault key => GetOrInsertSpec M (eqv key) (mk 0 key default) r M'
  | .get k => r = .opt (M k) ∧ M' = M
  | .remove k => r = .opt (M k) ∧ M' = AMap.set M k none
  | .isEmpty => M' = M ∧ ∃ b, r = .bool b ∧ (b = true ↔ ∀ k, M k = none)
  | .iter => M' = M ∧ ∃ l, r = .list l ∧ l.Nodup ∧ ∀ p, p ∈ l ↔ ∃ k, M k = some p
  | .extend l => r = .unit ∧ ∀ k, M' k = match (l.zipIdx.filter (fun x => eqv x.1.1 = k)).getLast? with
      | some x => some (mk x.2 x.1.1 x.1.2)
      | none => M k

/-- The calls of `ConSet`: `O`bjects of type `T`, looked up by keys (objects up to `Eq`). -/
inductive SetCall (K T : Type) where
  | insert (v : T)
  | get (k : K)
  | contains (k : K)
  | remove (k : K)
  | isEmpty
  | iter
  | extend (l : List T)

/-- On the set `S` of stored objects, the call returns `r` and leaves the set `S'`. `eqv v = eqv u` iff `v == u`. -/
def SetCall.Spec (eqv : T → K) (S : T → Prop) (c : SetCall K T) (r : MapRet T) (S' : T → Prop) : Prop :=
  match c with
  | .insert v => (∃ o, r = .opt o ∧ ∀ u, o = some u ↔ S u ∧ eqv u = eqv v) ∧ ∀ u, S' u ↔ u = v ∨ (S u ∧ eqv u ≠ eqv v)
  | .get k => (∃ o, r = .opt o ∧ ∀ u, o = some u ↔ S u ∧ eqv u = k) ∧ S' = S
  | .contains k => (∃ b, r = .bool b ∧ (b = true ↔ ∃ u, S u ∧ eqv u = k)) ∧ S' = S
  | .remove k => (∃ o, r = .opt o ∧ ∀ u, o = some u ↔ S u ∧ eqv u = k) ∧ ∀ u, S' u ↔ S u ∧ eqv u ≠ k
  | .isEmpty => (∃ b, r = .bool b ∧ (b = true ↔ ∀ u, ¬ S u)) ∧ S' = S
  | .iter => (∃ l, r = .list l ∧ l.Nodup ∧ ∀ u, u ∈ l ↔ S u) ∧ S' = S
  | .extend l => r = .unit ∧ ∀ u, S' u ↔ lastWith eqv l (eqv u) = some u ∨ (S u ∧ ∀ v ∈ l, eqv v ≠ eqv u)

/-- A sequence of calls: starting with `M`, the calls `cs` return `rs`, one by one, and leave `M'`. -/
inductive SpecSeq {C R S : Type} (spec : S → C → R → S → Prop) : S → List C → List R → S → Prop
  | nil (M : S) : SpecSeq spec M [] [] M
  | cons {M M1 M' : S} {c : C} {r : R} {cs : List C} {rs : List R} (h : spec M c r M1) (hs : SpecSeq spec M1 cs rs M') :
      SpecSeq spec M (c :: cs) (r :: rs) M'

end Contrie
