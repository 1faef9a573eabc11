import Verif.Proof.LooksOrder
/-
Under weak memory, in programs that synchronise: the looks of iterations fit into a linearization in real time.
-/
set_option linter.unusedSectionVars false
namespace Contrie
open scoped List
variable {K P : Type} [DecidableEq K] {cfg : Config K P}

namespace CExec
variable (E : CExec cfg)

/-- The events of the first `n` steps. -/
def events (n : Nat) : List (Event K P) := (List.range n).filterMap E.ev

theorem timeline {n : Nat} (hn : n ≤ E.len) : Timeline E.ev n where
  inv_id := fun _ _ _ hi h => (E.ev_inv (by omega) h).1
  ret := by
    intro j id r hj hr
    obtain ⟨t, weak, τ, c, g1, g2, g3, g4, g5, g6, g7⟩ := E.ret (by omega) hr
    refine ⟨g4, c.req, E.ev_call (by omega) g5, ?_⟩
    intro o ho
    simp only [CExec.OutOK, ho] at g7
    obtain ⟨x, h, -⟩ := g7
    exact ⟨x, h⟩
  once := fun _ _ _ _ _ hi hj h h' => E.res_unique (by omega) (by omega) h h'

theorem evBefore_iff {n : Nat} (hn : n ≤ E.len) {a b : Nat} : EvBefore (E.events n) a b ↔
    ∃ j r r', j < b ∧ b < n ∧ E.ev j = some (.res a r) ∧ E.ev b = some (.inv b r') := (E.timeline hn).evBefore_iff

/-- When call `id` returned. -/
noncomputable def stop (n id : Nat) : Nat := stopOf E.ev n id

theorem le_stop {n : Nat} (hn : n ≤ E.len) (id : Nat) : id ≤ E.stop n id := (E.timeline hn).le_stop id

theorem stop_lt {n : Nat} (hn : n ≤ E.len) {a b : Nat} (h : EvBefore (E.events n) a b) : E.stop n a < b := (E.timeline hn).stop_lt h

/-- Real-time order is happens-before, of calls that are not about different keys. -/
def LooksOrdered (n : Nat) : Prop := ∀ x y r r', E.ev x = some (.inv x r) → E.ev y = some (.inv y r') →
  (∀ o o', r = .op o → r' = .op o' → o.key cfg.key = o'.key cfg.key) → EvBefore (E.events n) x y → E.Hb x y

theorem looksSync {n : Nat} (hn : n ≤ E.len) (hs : E.LooksOrdered n) : ∃ L pos, IsLinearization cfg.key (E.history n) L (E.content n) ∧ KeywiseLooksFit cfg.key (E.events n) L pos := by
  have H := E.lin_causal hn
  rw [E.A_content n] at H
  obtain ⟨pos, h⟩ := E.looksFit hn
  exact (E.timeline hn).looksSync (E.wellFormed hn) H h hs

end CExec
end Contrie
