import Verif.Spec.Map
/-
Specification: histories of map operations and linearizability (Herlihy & Wing 1990). Nothing here refers to tries,
nodes or threads.
-/
namespace Contrie
open scoped List
variable {K P : Type} [DecidableEq K]

/-- An event of a history: call `id` is invoked with operation `o`, or call `id` returns `r`. -/
inductive HEv (K P : Type) where
  | inv (id : Nat) (o : Op K P)
  | res (id : Nat) (r : Ret P)

/-- A call with its result. -/
structure SOp (K P : Type) where
  id : Nat
  op : Op K P
  ret : Ret P

/-- `Legal key m L m'`: executing the calls of `L` one after the other on the plain map `m` gives exactly the results
recorded in `L`, and leads to the map `m'`. -/
inductive Legal (key : P → K) : AMap K P → List (SOp K P) → AMap K P → Prop
  | nil (m : AMap K P) : Legal key m [] m
  | cons {m m1 m2 : AMap K P} {x : SOp K P} {L : List (SOp K P)} (h : m.apply key x.op = (m1, x.ret))
      (hL : Legal key m1 L m2) : Legal key m (x :: L) m2

/-- Call `a` returned before call `b` was invoked. (`[x, y] <+ h`: in the list `h`, `y` occurs somewhere
after `x`.) -/
def Before (h : List (HEv K P)) (a b : Nat) : Prop :=
  ∃ r o, [HEv.res a r, HEv.inv b o] <+ h

/-- `L` is a linearization of the history `h` that leads to the map `final`: a sequence of invoked calls, each once,
that contains every completed call with the result it returned (and possibly some of the pending calls), respects the
real-time order of non-overlapping calls, and is a legal run of a plain map that starts empty. -/
structure IsLinearization (key : P → K) (h : List (HEv K P)) (L : List (SOp K P)) (final : AMap K P) : Prop where
  invoked : ∀ x ∈ L, HEv.inv x.id x.op ∈ h
  once : (L.map SOp.id).Nodup
  complete : ∀ id o r, HEv.inv id o ∈ h → HEv.res id r ∈ h → ⟨id, o, r⟩ ∈ L
  realtime : L.Pairwise (fun x y => ¬ Before h y.id x.id)
  legal : Legal key AMap.empty L final

/-- A history is linearizable if it has a linearization. -/
def Linearizable (key : P → K) (h : List (HEv K P)) : Prop := ∃ L final, IsLinearization key h L final

/-- A history is well formed: every call is invoked at most once, and returns at most once, after its invocation. -/
structure WellFormed (h : List (HEv K P)) : Prop where
  invOnce : h.Pairwise (fun x y => ∀ id o o', x = .inv id o → y = .inv id o' → False)
  resOnce : h.Pairwise (fun x y => ∀ id r r', x = .res id r → y = .res id r' → False)
  resAfter : ∀ id r, .res id r ∈ h → ∃ o, [HEv.inv id o, HEv.res id r] <+ h

/-! ### Facts about legal runs -/

theorem Legal.append {key : P → K} {m m1 m2 : AMap K P} {L1 L2 : List (SOp K P)} (h1 : Legal key m L1 m1)
    (h2 : Legal key m1 L2 m2) : Legal key m (L1 ++ L2) m2 := by
  induction h1 with
  | nil => exact h2
  | cons h _ ih => exact .cons h (ih h2)

theorem Legal.split {key : P → K} {m m2 : AMap K P} {L1 L2 : List (SOp K P)} (h : Legal key m (L1 ++ L2) m2) :
    ∃ m1, Legal key m L1 m1 ∧ Legal key m1 L2 m2 := by
  induction L1 generalizing m with
  | nil => exact ⟨m, .nil m, h⟩
  | cons x L1 ih =>
    cases h with
    | cons h hL => obtain ⟨m1, h1, h2⟩ := ih hL; exact ⟨m1, .cons h h1, h2⟩

/-- Calls that change nothing can be put anywhere. -/
theorem Legal.const {key : P → K} {m : AMap K P} {L : List (SOp K P)}
    (h : ∀ x ∈ L, m.apply key x.op = (m, x.ret)) : Legal key m L m := by
  induction L with
  | nil => exact .nil m
  | cons x L ih => exact .cons (h x (by simp)) (ih (fun y hy => h y (by simp [hy])))

end Contrie
