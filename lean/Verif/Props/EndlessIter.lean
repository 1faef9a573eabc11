import Verif.Proof.WildIter
import Verif.Props.EndlessRuns
/-
C14, C44: iterations come to an end, whatever other sessions and user code do, on weak memory.
-/
set_option linter.unusedSectionVars false
namespace Contrie
variable {K P : Type} [DecidableEq K]

/-- **C14, C44.** Iteration is wait-free on weak memory, with arbitrary user code: an iteration started in step `id` by a session that is scheduled again and
again as long as it is in a call (`hgo`) ends, whatever the others do meanwhile, without end, and whatever old values it sees: it returns
a list, unless it is dropped early. -/
theorem C44_iteration_wait_free (E : WEndless K P) {id t : Nat} (h : E.lab id = .call t .iter)
    (hgo : ∀ m, id < m → ∃ i, m ≤ i ∧ ((∃ w τ, E.lab i = .tick t w τ) ∨ ((E.st i).thr t).run = none)) :
    ∃ i, id < i ∧ E.Ends i t ∧ (E.lab i = .abort t ∨ ∃ out, E.ev i = some (.res id (.list out))) := by
  by_contra hcon
  have hs := E.step id
  rw [h] at hs
  have hck : (E.st id).m.clock = id := ((E.upto id).base (n := id) (Nat.le_refl _)).clock
  have hrun : ∀ d, ∃ c, ((E.st (id + 1 + d)).thr t).run = some c ∧ c.pc.iterates ∧ c.inv = id := by
    intro d
    induction d with
    | zero => exact ⟨_, (wstep_call hs).2, trivial, hck⟩
    | succ d ih =>
      obtain ⟨c, h1, h2, h3⟩ := ih
      rcases E.iter_next h1 h2 with ⟨g1, g2⟩ | ⟨c', g1, g2, g3, -⟩
      · rw [h3] at g2
        exact absurd ⟨id + 1 + d, by omega, ⟨by rw [h1]; simp, g1⟩, g2⟩ hcon
      · exact ⟨c', g1, g2, g3.trans h3⟩
  have hrun' : ∀ i, id < i → ∃ c, ((E.st i).thr t).run = some c ∧ c.pc.iterates ∧ c.inv = id := by
    intro i hi
    have := hrun (i - (id + 1))
    rwa [show id + 1 + (i - (id + 1)) = i by omega] at this
  have wf : WellFounded (Prod.Lex (α := Nat) (β := Nat) (· < ·) (· < ·)) :=
    WellFounded.prod_lex Nat.lt_wfRel.wf Nat.lt_wfRel.wf
  let g : Nat → Nat × Nat := fun i => match ((E.st i).thr t).run with
    | some c => c.pc.left (E.st i).m c.ticks
    | none => (0, 0)
  obtain ⟨n, hn, hq⟩ := settle wf g (fun i => ∀ w τ, E.lab i ≠ .tick t w τ) (id + 1) (by
    intro i hi
    obtain ⟨c, h1, h2, h3⟩ := hrun' i hi
    rcases E.iter_next h1 h2 with ⟨g1, -⟩ | ⟨c', g1, g2, g3, g4⟩
    · obtain ⟨c', h1', -⟩ := hrun' (i + 1) (by omega)
      rw [g1] at h1'; cases h1'
    · simp only [g, h1, g1]
      exact g4)
  obtain ⟨i, hi, hx⟩ := hgo n hn
  rcases hx with ⟨w, τ, hx⟩ | hx
  · exact (hq i hi).2 w τ hx
  · obtain ⟨c, h1, -⟩ := hrun' i (by omega)
    rw [hx] at h1; cases h1

/-- **C14** on weak memory, with user code that behaves. -/
theorem C14_iteration_wait_free_weak {cfg : Config K P} (E : CEndless cfg) {id t : Nat} (h : E.lab id = .call t .iter)
    (hgo : ∀ m, id < m → ∃ i, m ≤ i ∧ ((∃ w τ, E.lab i = .tick t w τ) ∨ ((E.st i).thr t).run = none)) :
    ∃ i, id < i ∧ (E.lab i = .abort t ∨ ∃ out, E.ev i = some (.res id (.list out))) := by
  obtain ⟨W, g1, g2, g3⟩ := C44_honest_is_special_case E
  obtain ⟨i, h1, -, h2⟩ := C44_iteration_wait_free W (id := id) (t := t) (by rw [g2]; exact h) (by rw [g2, g1]; exact hgo)
  rw [g2, g3] at h2
  exact ⟨i, h1, h2⟩

/-- Two sessions insert and remove forever, with user code that lies (`exChurn`); a third iterates, again and again; it sees the state of two instants ago
whenever it can. -/
def exWatch (i : Nat) (s : CState Nat (Nat × Nat)) : WLabel Nat (Nat × Nat) :=
  if i % 3 = 2 then
    if (s.thr 2).pin.isNone then (.pin 2, noAnswers, 0)
    else if (s.thr 2).run.isNone then (.call 2 .iter, noAnswers, 0)
    else if (CLabel.tick 2 false (i - 2)).enabledb s then (.tick 2 false (i - 2), exLies i, 0)
    else (.tick 2 false i, exLies i, 0)
  else exChurn (i - i / 3) s

def exWatching : WEndless Nat (Nat × Nat) := .ofStrategy exWatch

theorem exWatching_goes {i : Nat} (hi : i % 3 = 2) : (∃ w τ, exWatching.lab i = .tick 2 w τ) ∨ ((exWatching.st i).thr 2).run = none := by
  have hck : (exWatching.st i).m.clock = i := ((exWatching.upto i).base (n := i) (Nat.le_refl _)).clock
  cases hr : ((exWatching.st i).thr 2).run with
  | none => exact Or.inr rfl
  | some c =>
    left
    have hp : ((exWatching.st i).thr 2).pin.isNone = false := by
      have := (((exWatching.upto i).winv (n := i) (Nat.le_refl _)).sess 2).run c hr
      obtain ⟨p, hp, -⟩ := this.pin
      have hp' : ((exWatching.st i).thr 2).pin = some p := hp
      rw [hp']; rfl
    have hlab : ∀ x, exWatch i (exWatching.st i) = x → (∀ a, x.1 ≠ .free a) → x.1.enabledb (exWatching.st i) = true →
        (wstep (exWatching.st i) x.2.1 x.2.2 x.1).isSome = true → exWatching.lab i = x.1 := by
      intro x h hx h1 h2
      show (wpick (exWatching.st i) (exWatch i (exWatching.st i))).1 = x.1
      rw [h, wpick_eq hx h1 h2]
    by_cases c3 : (CLabel.tick 2 false (i - 2)).enabledb (exWatching.st i) = true
    · exact ⟨_, _, hlab (.tick 2 false (i - 2), exLies i, 0) (by simp only [exWatch, hi, hp, hr, c3]; rfl) (by simp) c3
        (by simp only [wstep, hr]; rfl)⟩
    · exact ⟨_, _, hlab (.tick 2 false i, exLies i, 0) (by simp only [exWatch, hi, hp, hr, c3]; rfl) (by simp) (by simp [CLabel.enabledb, hck])
        (by simp only [wstep, hr]; rfl)⟩

theorem exWatching_go (m : Nat) : ∃ i, m ≤ i ∧ ((∃ w τ, exWatching.lab i = .tick 2 w τ) ∨ ((exWatching.st i).thr 2).run = none) :=
  ⟨m + (2 + 2 * (m % 3)) % 3, by omega, exWatching_goes (by omega)⟩

set_option maxRecDepth 20000 in
/-- Non-vacuity: an iteration is started in step 5 (and later ones), and so ends. -/
example : exWatching.lab 5 = .call 2 .iter ∧ ∃ i, 5 < i ∧ exWatching.Ends i 2 ∧
    (exWatching.lab i = .abort 2 ∨ ∃ out, exWatching.ev i = some (.res 5 (.list out))) := by
  have h : exWatching.lab 5 = .call 2 .iter := by rfl
  exact ⟨h, C44_iteration_wait_free exWatching h (fun m _ => exWatching_go m)⟩

end Contrie
