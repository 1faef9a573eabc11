import Verif.Model.Machine
import Mathlib.Data.List.Forall2
/-
Specification of sequential use: what a sequence of requests returns on a plain map. Nothing here refers to tries, nodes
or threads. (The import is for the types `Req` and `Res` of requests and results.)
-/
namespace Contrie
variable {K P : Type} [DecidableEq K]

/-- On the map `A` the request `r` is answered by `x`, and afterwards the map is `A'`. -/
def AMap.Answers (key : P → K) (A : AMap K P) (r : Req K P) (x : Res P) (A' : AMap K P) : Prop :=
  match r, x with
  | .op o, .op y => A.apply key o = (A', y)
  | .isEmpty, .bool b => A' = A ∧ (b = true ↔ ∀ k, A k = none)
  | .iter, .list l => A' = A ∧ (l.map key).Nodup ∧ ∀ p, p ∈ l ↔ A (key p) = some p
  | _, _ => False

/-- `SeqLegal key A L A'`: starting with the map `A`, the requests in `L`, one after the other, are answered as recorded
in `L`, and lead to the map `A'`. -/
inductive SeqLegal (key : P → K) : AMap K P → List (Req K P × Res P) → AMap K P → Prop
  | nil (A : AMap K P) : SeqLegal key A [] A
  | snoc {A A1 A2 : AMap K P} {L : List (Req K P × Res P)} {r : Req K P} {x : Res P} (hL : SeqLegal key A L A1)
      (h : A1.Answers key r x A2) : SeqLegal key A (L ++ [(r, x)]) A2

/-- A call with its name, its request and its result. -/
structure Done (K P : Type) where
  id : Nat
  req : Req K P
  res : Res P

/-- The events of calls that do not overlap: each one returns before the next one is invoked. -/
def seqEvents (L : List (Done K P)) : List (Event K P) := L.flatMap (fun x => [.inv x.id x.req, .res x.id x.res])

/-- The same on a plain map, if it is clear for every request what is meant by "the same answer": two answers may
differ only in the order in which an iteration yields the elements. -/
def Res.Same : Res P → Res P → Prop
  | .op x, .op y => x = y
  | .bool b, .bool b' => b = b'
  | .list l, .list l' => l.Perm l'
  | _, _ => False

theorem Answers.same {key : P → K} {A A1 A2 : AMap K P} {r : Req K P} {x y : Res P} (h1 : A.Answers key r x A1)
    (h2 : A.Answers key r y A2) : x.Same y ∧ A1 = A2 := by
  cases r with
  | op o =>
    cases x <;> cases y <;> simp only [AMap.Answers] at h1 h2
    rw [h1] at h2; cases h2; exact ⟨rfl, rfl⟩
  | isEmpty =>
    cases x <;> cases y <;> simp only [AMap.Answers] at h1 h2
    refine ⟨?_, by rw [h1.1, h2.1]⟩
    simp only [Res.Same]
    rw [Bool.eq_iff_iff, h1.2, h2.2]
  | iter =>
    cases x <;> cases y <;> simp only [AMap.Answers] at h1 h2
    refine ⟨?_, by rw [h1.1, h2.1]⟩
    simp only [Res.Same]
    rw [List.perm_ext_iff_of_nodup (List.Pairwise.of_map key (fun a b h e => h (by rw [e])) h1.2.1)
      (List.Pairwise.of_map key (fun a b h e => h (by rw [e])) h2.2.1)]
    intro p
    rw [h1.2.2, h2.2.2]

/-- The answers to a sequence of requests are determined. -/
theorem SeqLegal.same {key : P → K} {A A1 A2 : AMap K P} {L L' : List (Req K P × Res P)} (h1 : SeqLegal key A L A1)
    (h2 : SeqLegal key A L' A2) (hr : L.map Prod.fst = L'.map Prod.fst) :
    List.Forall₂ Res.Same (L.map Prod.snd) (L'.map Prod.snd) ∧ A1 = A2 := by
  induction h1 generalizing L' A2 with
  | nil => cases h2 with
    | nil => exact ⟨.nil, rfl⟩
    | snoc => simp at hr
  | @snoc A1 A1' L r x hL h ih => cases h2 with
    | nil => simp at hr
    | @snoc B1 B2 L2 r2 x2 hL2 h2 =>
      simp only [List.map_append, List.map_cons, List.map_nil] at hr
      obtain ⟨e1, e2⟩ := List.append_inj' hr rfl
      simp only [List.cons.injEq, and_true] at e2
      obtain ⟨g1, g2⟩ := ih hL2 e1
      subst e2 g2
      obtain ⟨k1, k2⟩ := Answers.same h h2
      subst k2
      refine ⟨?_, rfl⟩
      simp only [List.map_append, List.map_cons, List.map_nil]
      exact List.rel_append g1 (.cons k1 .nil)

end Contrie
