import Verif.Model.Client
import Verif.Model.Coherent
/-
Programs that use several maps (`Verif/Model/Client.lean`), on weak memory.
-/
namespace Contrie
variable {K P α : Type} [DecidableEq K]

/-- A world with several maps (numbered), on weak memory: an execution of `len` steps for each of them, interleaved in all possible ways (in each instant at most one of
them makes a step). Synchronisation of sessions is not about one map, it happens in all of them. The maps share no nodes (`Raw` owns its nodes). -/
structure CWorld (key : P → K) where
  hash : Nat → K → BitVec 64
  len : Nat
  ex : (m : Nat) → CExec ⟨key, hash m⟩
  same : ∀ m, (ex m).len = len
  sole : ∀ i m m', i < len → (ex m).lab i ≠ .idle → (ex m').lab i ≠ .idle → m = m' ∨ ∃ t t' τ, (ex m).lab i = .sync t t' τ
  sync : ∀ i m m' t t' τ, i < len → (ex m).lab i = .sync t t' τ → (ex m').lab i = .sync t t' τ

/-- Between the instants `i` and `j`, session `t` starts no call. -/
def CWorld.Quiet {key : P → K} (W : CWorld key) (t i j : Nat) : Prop :=
  ∀ n, i ≤ n → n < j → ∀ m r, (W.ex m).lab n ≠ .call t r

/-- Between the instants `i` and `j`, session `t` executes the program and obtains the value `a`; the calls it makes in this time are those of the program.
Other sessions may do anything meanwhile. -/
inductive CWorld.Runs {key : P → K} (W : CWorld key) (t : Nat) : Prog K P α → Nat → Nat → α → Prop
  | ret {i j : Nat} {a : α} (h : i ≤ j) (hj : j ≤ W.len) (hq : W.Quiet t i j) : W.Runs t (.ret a) i j a
  | call {m i id j j' : Nat} {r : Req K P} {x : Res P} {k : Res P → Prog K P α} {a : α}
      (h1 : i ≤ id) (hq1 : W.Quiet t i id) (hc : (W.ex m).lab id = .call t r)
      (h2 : id < j) (hj : j < W.len) (hq2 : W.Quiet t (id + 1) (j + 1)) (hr : (W.ex m).ev j = some (.res id x))
      (hk : W.Runs t (k x) (j + 1) j' a) : W.Runs t (.call m r k) i j' a

/-- Between the instants `i` and `j`, session `t` alone may update map `m` (it holds a lock), and it is not in the middle of a call on this map at the beginning. -/
structure CWorld.Locked {key : P → K} (W : CWorld key) (m t i j : Nat) : Prop where
  idle : (((W.ex m).st i).thr t).run = none
  alone : ∀ n, i ≤ n → n ≤ j → ∀ t' c, (((W.ex m).st n).thr t').run = some c → c.req.isUpdate = true → t' = t

end Contrie
