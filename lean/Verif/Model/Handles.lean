import Verif.Model.Ledger
import Verif.Proof.WildLive
import Mathlib.Algebra.BigOperators.Group.Finset.Basic
import Mathlib.Data.Multiset.AddSub
/-
Handles to elements: the payload of a `ConMap` is `MapPayload(Arc<Element<K, V>>)` (`src/map.rs:47-59`), and so are the results of its methods. This is the counting of references by `Arc`, with any number of
maps sharing elements ("Entries can be shared between multiple maps", "Cloning of the map doesn't clone the data", `src/map.rs:98-108`) and with users who keep handles for as long as they like.

A payload `p : P` stands for the allocation the `Arc` points to: two handles to the same element are equal. Each map is an execution of the machine of `Verif/Model/Wild.lean`, with the record of `Verif/Model/Ledger.lean` of what is
done to payloads. All have one clock; at each instant the user may do something with a handle, and then at most one of the maps makes a step.
-/
namespace Contrie
variable {K P : Type}

/-- What users do with handles. -/
inductive UAct (P : Type) where
  /-- `Arc::new(Element::new(..))`, `src/map.rs:182`, `:210` (in the closure), or in the user's code -/
  | new (e : P)
  /-- `Arc::clone` of a handle the user has -/
  | clone (e : P)
  /-- `Arc::clone(&p.0)` of what a call on map `m` by session `t` returned a reference to, under the guard of the session, `src/map.rs:92` (iteration), `:250`, `:272`, `:282`, `:292` -/
  | fetch (m t : Nat) (e : P)
  /-- the user drops a handle -/
  | drop (e : P)
deriving DecidableEq

/-- What the user has in hand after having done so. -/
def UAct.hand [DecidableEq P] (h : Multiset P) : UAct P → Multiset P
  | .new e => e ::ₘ h
  | .clone e => e ::ₘ h
  | .fetch _ _ e => e ::ₘ h
  | .drop e => h.erase e

/-- The same, if the user need not do anything. -/
def handAfter [DecidableEq P] (h : Multiset P) : Option (UAct P) → Multiset P
  | none => h
  | some u => u.hand h

/-- What it does to the reference count of `e`. -/
def UAct.delta [DecidableEq P] (e : P) : UAct P → Int
  | .new x => if x = e then 1 else 0
  | .clone x => if x = e then 1 else 0
  | .fetch _ _ x => if x = e then 1 else 0
  | .drop x => if x = e then -1 else 0

/-- What a map does to the reference count of `e`: cloning a payload is `Arc::clone` (`src/map.rs:49-53`), destructing it drops the `Arc`; to hand a handle over does not change the count, nor does forgetting it. -/
def Act.delta [DecidableEq P] (e : P) : Act P → Int
  | .take _ => 0
  | .clone x => if x = e then 1 else 0
  | .drop x => if x = e then -1 else 0
  | .leak _ => 0

/-- The handles handed over to a map. -/
def taken (l : List (Act P)) : List P := l.filterMap (fun x => match x with | .take p => some p | _ => none)

/-- A reference to `e` that session `t` has at instant `i`: it was returned by a call of it, or yielded by its iteration, at instant `j`, and it still has the guard it had then. -/
def WExec.HasRef (E : WExec K P) (t i : Nat) (e : P) : Prop :=
  (∃ j id r weak τ, j < i ∧ E.ev j = some (.res id r) ∧ E.lab j = .tick t weak τ ∧ e ∈ r.elements ∧ E.KeepsGuard t j i) ∨
  (∃ j c, j ≤ i ∧ ((E.st j).thr t).run = some c ∧ e ∈ c.yielded ∧ E.KeepsGuard t j i)

/-- Maps that share elements, and a user of them.

`run m`: what happens in map `m`, one of `maps` many. `acts`: what is done to payloads there. `fix`: is `drop_data` repaired? (cf. C31). `extra`: cf. `wacts`.
`hand i`: the handles the user has at instant `i`. -/
structure Sharing (K P : Type) [DecidableEq P] where
  len : Nat
  maps : Nat
  run : Nat → WExec K P
  fix : Bool
  extra : Nat → Nat → List P
  user : Nat → Option (UAct P)
  hand : Nat → Multiset P
  /-- all maps live until the end -/
  covers : ∀ m, m < maps → len ≤ (run m).len
  /-- one at a time -/
  turns : ∀ i m m', i < len → m < maps → m' < maps → (run m).lab i ≠ .idle → (run m').lab i ≠ .idle → m = m'
  /-- the clone of an `Arc` is a handle to the same element -/
  clones : ∀ m i n e, m < maps → i < len → ((run m).ans i).clone n e = e
  /-- in the beginning there are no elements -/
  start : hand 0 = 0
  /-- a new element is new -/
  new : ∀ i j e, i < len → j < i → user i = some (.new e) → user j ≠ some (.new e)
  /-- the user clones and drops handles that are in hand only -/
  inHand : ∀ i e, i < len → user i = some (.clone e) ∨ user i = some (.drop e) → e ∈ hand i
  /-- the wrappers clone what they have a reference to -/
  fetched : ∀ i m t e, i < len → user i = some (.fetch m t e) → m < maps ∧ (run m).HasRef t i e
  /-- what is handed over to a map, was in hand and is not any more -/
  gives : ∀ i, i < len → hand (i + 1) + ∑ m ∈ Finset.range maps, (taken (wacts fix ((run m).st i) ((run m).ans i) (extra m i) ((run m).lab i)) : Multiset P) =
    handAfter (hand i) (user i)

namespace Sharing
variable [DecidableEq P] (S : Sharing K P)

/-- What is done to payloads in map `m` at instant `i`. -/
def acts (m i : Nat) : List (Act P) := wacts S.fix ((S.run m).st i) ((S.run m).ans i) (S.extra m i) ((S.run m).lab i)

/-- What the user does to the reference count of `e` at instant `i`. -/
def userDelta (i : Nat) (e : P) : Int := match S.user i with | none => 0 | some u => u.delta e

/-- What the maps do to the reference count of `e` at instant `i`. -/
def mapDelta (i : Nat) (e : P) : Int := ∑ m ∈ Finset.range S.maps, ((S.acts m i).map (Act.delta e)).sum

/-- The reference count of element `e` at instant `n`; 0 before it is created. -/
def count (n : Nat) (e : P) : Int := ∑ i ∈ Finset.range n, (S.userDelta i e + S.mapDelta i e)

/-- Was `e` created before instant `n`? -/
def Created (n : Nat) (e : P) : Prop := ∃ j, j < n ∧ S.user j = some (.new e)

/-- Map `m` has a handle to `e` at instant `i`: there is one in a node that was not destroyed (linked or not), or a call in progress owns one. -/
def Has (m i : Nat) (e : P) : Prop := (∃ a, e ∈ ((S.run m).st i).m.elems a) ∨ ∃ t, e ∈ ((S.run m).st i).owned t

end Sharing
end Contrie
