import Verif.Proof.SerialRem
import Verif.Proof.Liveness
/-
Executions in which updates do not overlap; requests that are no updates do not write.
-/
set_option linter.unusedSectionVars false
namespace Contrie
variable {K P : Type} [DecidableEq K]

/-- Up to instant `n`, no two updates are ever in progress at the same time, and no update is abandoned half way
(by a panic of user code). Lookups, `is_empty` and iterations may run in parallel with everything. -/
structure Exec.SerialUpdates {cfg : Config K P} (E : Exec cfg) (n : Nat) : Prop where
  alone : ∀ i, i ≤ n → ∀ t t' c c', ((E.st i).thr t).run = some c → ((E.st i).thr t').run = some c' →
    c.req.isUpdate = true → c'.req.isUpdate = true → t = t'
  finished : ∀ i, i < n → ∀ t c, E.lab i = .abort t → ((E.st i).thr t).run = some c → c.req.isUpdate = false

/-- No update is in progress at instant `i`. -/
def Exec.NoUpdate {cfg : Config K P} (E : Exec cfg) (i : Nat) : Prop :=
  ∀ t c, ((E.st i).thr t).run = some c → c.req.isUpdate = false

theorem TravReq.upd {cfg : Config K P} {req : Req K P} {mode : Mode} {st : TState K P} {calls : Nat}
    (h : TravReq cfg req mode st calls) : req.isUpdate = true := by
  cases h <;> rfl

/-- Requests that are no updates do not write. -/
theorem tick_reader {cfg : Config K P} {A : Nat → AMap K P} {m : Mem P} {weak : Bool} {c : Call K P}
    (hi : PCInv cfg A m c) (hr : c.req.isUpdate = false) : (tick cfg m weak c.pc).1 = m := by
  unfold PCInv at hi
  cases hpc : c.pc with
  | get => rfl
  | isEmpty => rfl
  | iterNew => rfl
  | iterNext => rfl
  | trav => rfl
  | rem => rfl
  | count => rfl
  | travCas =>
    simp only [hpc] at hi
    obtain ⟨d, -, ht, -⟩ := hi
    exact absurd hr (by rw [ht.req.upd]; simp)
  | remCas =>
    simp only [hpc] at hi
    rw [hi.1] at hr; cases hr
  | prune parent child i acc k =>
    simp only [hpc] at hi
    have := hi.1
    cases k with
    | trav st hash mode => exact absurd hr (by rw [this.1.upd]; simp)
    | rem key => rw [this.1] at hr; cases hr
    | clean d ref rest => obtain ⟨⟨⟨k, e⟩, -⟩, -⟩ := this; rw [e] at hr; cases hr
  | pruneCas parent child acc k =>
    simp only [hpc] at hi
    have := hi.1
    cases k with
    | trav st hash mode => exact absurd hr (by rw [this.1.upd]; simp)
    | rem key => rw [this.1] at hr; cases hr
    | clean d ref rest => obtain ⟨⟨⟨k, e⟩, -⟩, -⟩ := this; rw [e] at hr; cases hr

end Contrie
