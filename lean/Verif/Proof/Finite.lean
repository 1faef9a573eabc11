import Verif.Proof.Lin
/-
Finite runs as executions, and an executable check that a concrete finite run obeys the contracts (for examples).
-/
set_option linter.unusedSectionVars false
namespace Contrie
variable {K P : Type} [DecidableEq K]

/-- Every finite run from `s` can be continued for ever (by idling). -/
theorem extend_run {cfg : Config K P} (ls : List (Label K P)) : ∀ s : State K P, RunOK cfg s ls →
    ∃ (st : Nat → State K P) (lab : Nat → Label K P) (ev : Nat → Option (Event K P)), st 0 = s ∧
      (∀ i, Contrie.step cfg (st i) (lab i) = some (st (i + 1), ev i)) ∧ (∀ i, (lab i).enabled (st i)) ∧
      (∀ i, (lab i).WF cfg) ∧
      runList cfg s ls = some (st ls.length, (List.range ls.length).filterMap ev) ∧
      ∀ i, lab i = ls.getD i .idle := by
  induction ls with
  | nil =>
    intro s _
    refine ⟨fun i => ⟨{ s.m with clock := s.m.clock + i }, s.thr⟩, fun _ => .idle, fun _ => none, rfl, ?_, ?_, ?_, rfl, ?_⟩
    · intro i; rfl
    · intro i; trivial
    · intro i; trivial
    · intro i; simp
  | cons l ls ih =>
    intro s h
    obtain ⟨h1, h2, h3⟩ := h
    cases hs : Contrie.step cfg s l with
    | none => rw [hs] at h3; exact h3.elim
    | some x =>
      obtain ⟨s', e⟩ := x
      rw [hs] at h3
      obtain ⟨st, lab, ev, g0, g1, g2, g3, g4, g5⟩ := ih s' h3
      refine ⟨fun i => i.casesOn s st, fun i => i.casesOn l lab, fun i => i.casesOn e ev, rfl, ?_, ?_, ?_, ?_, ?_⟩
      · intro i
        cases i with
        | zero => simp only; rw [g0]; exact hs
        | succ i => exact g1 i
      · intro i
        cases i with
        | zero => exact h1
        | succ i => exact g2 i
      · intro i
        cases i with
        | zero => exact h2
        | succ i => exact g3 i
      · simp only [runList, hs, g4, List.length_cons, List.range_succ_eq_map, List.filterMap_cons, List.filterMap_map]
        cases e <;> rfl
      · intro i
        cases i with
        | zero => rfl
        | succ i => simpa using g5 i

/-- Every finite run is the beginning of an execution. -/
theorem Exec.ofList {cfg : Config K P} {ls : List (Label K P)} (h : RunOK cfg State.init ls) :
    ∃ E : Exec cfg, runList cfg State.init ls = some (E.st ls.length, (List.range ls.length).filterMap E.ev) ∧
      ∀ i, E.lab i = ls.getD i .idle := by
  obtain ⟨st, lab, ev, g0, g1, g2, g3, g4, g5⟩ := extend_run ls State.init h
  exact ⟨⟨st, lab, ev, g0, g1, g2, g3⟩, g4, g5⟩

theorem Exec.opHistory_ofList {cfg : Config K P} (E : Exec cfg) (n : Nat) :
    opHistory ((List.range n).filterMap E.ev) = E.history n := by
  simp only [opHistory, Exec.history, List.filterMap_filterMap]

/-! ### Checking concrete runs -/

/-- The session a label is about, if any. -/
def Label.thread : Label K P → Option Nat
  | .pin t => some t
  | .unpin t => some t
  | .call t _ => some t
  | .tick t _ => some t
  | .abort t => some t
  | .free _ => none
  | .idle => none

/-- Executable version of `Label.WF`. -/
def Label.wfb (cfg : Config K P) : Label K P → Bool
  | .call _ (.op (.getOrInsert k f)) => decide (cfg.key (f k) = k)
  | _ => true

/-- Executable version of `Label.enabled` when only sessions below `N` are ever used. -/
def Label.enabledb (N : Nat) (s : State K P) : Label K P → Bool
  | .free a => match s.m.retired a with
    | none => false
    | some τ => (List.range N).all (fun t => match (s.thr t).pin with
      | none => true
      | some p => decide (τ < p))
  | _ => true

/-- Executable version of `RunOK` when only sessions below `N` are used. -/
def runOKb (cfg : Config K P) (N : Nat) : State K P → List (Label K P) → Bool
  | _, [] => true
  | s, l :: ls => l.enabledb N s && l.wfb cfg && (match l.thread with | none => true | some t => decide (t < N)) &&
    match step cfg s l with
    | none => false
    | some (s', _) => runOKb cfg N s' ls

theorem step_thread {cfg : Config K P} {s s' : State K P} {l : Label K P} {e : Option (Event K P)}
    (h : Contrie.step cfg s l = some (s', e)) {t : Nat} (ht : l.thread ≠ some t) : s'.thr t = s.thr t := by
  cases l with
  | pin t0 =>
    simp only [Contrie.step] at h
    split at h <;> cases h
    exact upd_other _ _ (by intro e; exact ht (by simp [Label.thread, e]))
  | unpin t0 =>
    simp only [Contrie.step] at h
    split at h <;> cases h
    exact upd_other _ _ (by intro e; exact ht (by simp [Label.thread, e]))
  | call t0 r =>
    simp only [Contrie.step] at h
    split at h <;> cases h
    exact upd_other _ _ (by intro e; exact ht (by simp [Label.thread, e]))
  | tick t0 weak =>
    simp only [Contrie.step] at h
    split at h <;> cases h
    exact upd_other _ _ (by intro e; exact ht (by simp [Label.thread, e]))
  | abort t0 =>
    simp only [Contrie.step] at h
    split at h <;> cases h
    exact upd_other _ _ (by intro e; exact ht (by simp [Label.thread, e]))
  | free a => simp only [Contrie.step] at h; cases h; rfl
  | idle => simp only [Contrie.step] at h; cases h; rfl

theorem runOK_of_check_aux {cfg : Config K P} {N : Nat} {ls : List (Label K P)} : ∀ {s : State K P},
    (∀ t, N ≤ t → (s.thr t).pin = none) → runOKb cfg N s ls = true → RunOK cfg s ls := by
  induction ls with
  | nil => intro s _ _; trivial
  | cons l ls ih =>
    intro s hs h
    simp only [runOKb, Bool.and_eq_true] at h
    obtain ⟨⟨⟨h1, h2⟩, h3⟩, h4⟩ := h
    refine ⟨?_, ?_, ?_⟩
    · cases l with
      | free a =>
        simp only [Label.enabledb] at h1
        cases hr : s.m.retired a with
        | none => simp [hr] at h1
        | some τ =>
          refine ⟨τ, hr, ?_⟩
          intro t p hp
          by_cases ht : t < N
          · simp only [hr, List.all_eq_true, List.mem_range] at h1
            have := h1 t ht
            simpa [hp] using this
          · rw [hs t (by omega)] at hp; cases hp
      | _ => trivial
    · cases l with
      | call t r =>
        cases r with
        | op o => cases o <;> simp_all [Label.wfb, Label.WF, Op.WF]
        | _ => trivial
      | _ => trivial
    · cases he : step cfg s l with
      | none => simp [he] at h4
      | some x =>
        obtain ⟨s', e⟩ := x
        simp only [he] at h4 ⊢
        refine ih ?_ h4
        intro t ht
        rw [step_thread he, hs t ht]
        intro e
        rw [e] at h3
        simp at h3
        omega

/-- Soundness of the check. -/
theorem runOK_of_check {cfg : Config K P} (N : Nat) {ls : List (Label K P)}
    (h : runOKb cfg N State.init ls = true) : RunOK cfg State.init ls :=
  runOK_of_check_aux (fun _ _ => rfl) h

/-- A checked concrete run is the beginning of an execution. -/
theorem Exec.ofCheck {cfg : Config K P} (N : Nat) {ls : List (Label K P)} (h : runOKb cfg N State.init ls = true) :
    ∃ E : Exec cfg, runList cfg State.init ls = some (E.st ls.length, (List.range ls.length).filterMap E.ev) ∧
      ∀ i, E.lab i = ls.getD i .idle := Exec.ofList (runOK_of_check N h)

/-! ### Evaluating concrete runs -/

/-- State after `i` steps of a concrete run. -/
def stAt (cfg : Config K P) (ls : List (Label K P)) : Nat → State K P
  | 0 => State.init
  | i + 1 => match step cfg (stAt cfg ls i) (ls.getD i .idle) with
    | some (s, _) => s
    | none => stAt cfg ls i

/-- What is observable of step `i` of a concrete run. -/
def evAt (cfg : Config K P) (ls : List (Label K P)) (i : Nat) : Option (Event K P) :=
  match step cfg (stAt cfg ls i) (ls.getD i .idle) with
  | some (_, e) => e
  | none => none

/-- A checked concrete run as an execution whose states and events can be computed. -/
theorem Exec.ofCheck' {cfg : Config K P} (N : Nat) {ls : List (Label K P)} (h : runOKb cfg N State.init ls = true) :
    ∃ E : Exec cfg, (∀ i, E.st i = stAt cfg ls i) ∧ (∀ i, E.ev i = evAt cfg ls i) ∧ ∀ i, E.lab i = ls.getD i .idle := by
  obtain ⟨E, -, hl⟩ := Exec.ofCheck N h
  have hst : ∀ i, E.st i = stAt cfg ls i := by
    intro i
    induction i with
    | zero => exact E.init
    | succ i ih =>
      have := E.step i
      rw [hl, ih] at this
      simp only [stAt, this]
  refine ⟨E, hst, ?_, hl⟩
  intro i
  have := E.step i
  rw [hl, hst i] at this
  simp only [evAt, this]

end Contrie
