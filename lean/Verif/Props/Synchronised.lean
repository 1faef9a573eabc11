import Verif.Proof.Local
import Verif.Props.Coherent
/-
C41: programs that synchronise need not know about weak memory.
-/
set_option linter.unusedSectionVars false
namespace Contrie
open scoped List
variable {K P : Type} [DecidableEq K] {cfg : Config K P} (E : CExec cfg)

/-- **C41.** Under weak memory: if any two calls about the same key that do not overlap are ordered by the program's own synchronisation
(whenever one returns before the other is invoked, it happens before it), the history is linearizable in the sense of Herlihy and Wing, and the
linearization leads to the present content of the trie. Calls about different keys need not be synchronised. -/
theorem C41_synchronised_linearizable {n : Nat} (hn : n ≤ E.len)
    (hs : ∀ x y o o', HEv.inv x o ∈ E.history n → HEv.inv y o' ∈ E.history n → o.key cfg.key = o'.key cfg.key →
      Before (E.history n) x y → E.Hb x y) :
    ∃ L, IsLinearization cfg.key (E.history n) L (E.content n) := by
  obtain ⟨wf, L, h, -, -⟩ := C39_causal E hn
  obtain ⟨L', -, h'⟩ := h.linearizable wf hs
  exact ⟨L', h'⟩

/-- The calls of one session are ordered anyway. -/
theorem C41_own_calls {x y t : Nat} {o o' : Req K P} {r : Res P} {j : Nat} {weak : Bool} {τ : Nat} (hj : j < E.len)
    (hy : y < E.len) (h1 : E.lab j = .tick t weak τ) (h2 : E.ev j = some (.res x r)) (h3 : E.lab y = .call t o')
    (h4 : j < y) : E.Hb x y :=
  ⟨t, t, j, r, o', weak, τ, hj, h1, h2, hy, h3, .po t h4⟩

/-! ### Example -/

/-- Session 0 inserts (7, 1); session 1 synchronises with it and looks 7 up; session 2, which synchronises with nobody, inserts (9, 1). -/
def exDrfRun : List (CLabel Nat (Nat × Nat)) :=
  exSyncRun ++ [.pin 2, .call 2 (.op (.insert (9, 1))), .tick 2 false 10, .tick 2 false 11, .tick 2 false 12, .tick 2 false 13, .tick 2 false 14]

def exDrf : CExec exCfg :=
  .ofRun exCfg exDrfRun (by decide) (fun i a hi e => absurd e (no_free (cfg := exCfg) (by decide) hi))

theorem exDrf_history : exDrf.history 15 =
    [.inv 2 (.insert (7, 1)), .res 2 (.opt none), .inv 6 (.get 7), .res 6 (.opt (some (7, 1))),
     .inv 9 (.insert (9, 1)), .res 9 (.opt none)] := by rfl

/-- Non-vacuity of C41: not all calls are ordered by synchronisation, those on the same key are. -/
example : ∃ L, IsLinearization exCfg.key (exDrf.history 15) L (exDrf.content 15) := by
  refine C41_synchronised_linearizable exDrf (n := 15) (by decide) ?_
  intro x y o o' hx hy hk hb
  have hwf := exDrf.wellFormed (n := 15) (by decide)
  have h26 : exDrf.Hb 2 6 :=
    ⟨0, 1, 4, .op (.opt none), .op (.get 7), false, 4, by decide, rfl, rfl, by decide, rfl,
      .trans (.sync (t := 1) (t' := 0) (τ := 5) (j := 5) (by decide) rfl) (.po 1 (by decide))⟩
  have hne : x ≠ y := by rintro rfl; exact hwf.irrefl hb
  obtain ⟨j, r, o2, h1, h2, h3, h4⟩ := exDrf.before_history (n := 15) (by decide) hb
  obtain ⟨t, weak, τ, c, -, -, -, h5, -⟩ := exDrf.ret (j := j) (by show j < 15; omega) h3
  rw [exDrf_history] at hx hy
  simp only [List.mem_cons, HEv.inv.injEq, reduceCtorEq, List.not_mem_nil, or_false, false_or] at hx hy
  rcases hx with ⟨rfl, rfl⟩ | ⟨rfl, rfl⟩ | ⟨rfl, rfl⟩ <;> rcases hy with ⟨rfl, rfl⟩ | ⟨rfl, rfl⟩ | ⟨rfl, rfl⟩ <;>
    first | exact h26 | omega | exact absurd hk (by decide)

end Contrie
