import Verif.Model.Basic
/-
Specification: the plain sequential map. Nothing here refers to tries, nodes or threads.
(The import is only for the enum `ExistingOrNew`, which is part of the API.)
-/
namespace Contrie

/-- The map operations of the API (raw level; `P` is the stored payload, which contains its key).
`getOrInsert k f`: `f` is the closure creating the payload for a missing key. -/
inductive Op (K P : Type) where
  | get (k : K)
  | insert (p : P)
  | getOrInsert (k : K) (f : K → P)
  | remove (k : K)

/-- Results of map operations. -/
inductive Ret (P : Type) where
  | opt (r : Option P)
  | eon (r : ExistingOrNew P)
deriving DecidableEq

/-- The abstract map. -/
abbrev AMap (K P : Type) := K → Option P

/-- The empty map. -/
def AMap.empty {K P : Type} : AMap K P := fun _ => none

/-- Replace the binding of one key. -/
def AMap.set {K P : Type} [DecidableEq K] (m : AMap K P) (k : K) (v : Option P) : AMap K P :=
  fun x => if x = k then v else m x

/-- One operation on a plain map: new map and result. `key` extracts the key of a payload. -/
def AMap.apply {K P : Type} [DecidableEq K] (key : P → K) (m : AMap K P) : Op K P → AMap K P × Ret P
  | .get k => (m, .opt (m k))
  | .insert p => (m.set (key p) (some p), .opt (m (key p)))
  | .getOrInsert k f =>
    match m k with
    | some e => (m, .eon (.existing e))
    | none => (m.set k (some (f k)), .eon (.new (f k)))
  | .remove k => (m.set k none, .opt (m k))

/-- The contract of the API on arguments: the closure of `get_or_insert_with` builds an element
for the key it was asked for. -/
def Op.WF {K P : Type} (key : P → K) : Op K P → Prop
  | .getOrInsert k f => key (f k) = k
  | _ => True

/-- The key an operation works on. -/
def Op.key {K P : Type} (key : P → K) : Op K P → K
  | .get k => k
  | .insert p => key p
  | .getOrInsert k _ => k
  | .remove k => k

end Contrie
