import Verif.Proof.CohLin
/-
Concrete executions of the coherent machine (for examples).
-/
set_option linter.unusedSectionVars false
namespace Contrie
variable {K P : Type} [DecidableEq K]

/-- Executable version of `CLabel.WF`. -/
def CLabel.wfb (cfg : Config K P) : CLabel K P → Bool
  | .call _ (.op (.getOrInsert k f)) => decide (cfg.key (f k) = k)
  | _ => true

/-- Executable version of `CLabel.enabled`. -/
def CLabel.enabledb (s : CState K P) : CLabel K P → Bool
  | .tick t weak τ => decide (τ = s.m.clock) || decide (τ < s.m.clock) && match (s.thr t).run with
      | none => false
      | some c => match c.pc.access .code with
        | none => false
        | some (loc, _) => ((s.memAt τ).read loc).isSome && decide ((s.thr t).view loc ≤ τ) &&
            !(c.pc.writes (s.seen c.pc τ) weak)
  | .sync _ _ τ => decide (τ ≤ s.m.clock)
  | _ => true

theorem enabled_of_check {s : CState K P} {l : CLabel K P} (h : l.enabledb s = true) : l.enabled s := by
  cases l with
  | tick t weak τ =>
    simp only [CLabel.enabledb, Bool.or_eq_true, Bool.and_eq_true, decide_eq_true_eq] at h
    rcases h with h | ⟨h1, h2⟩
    · exact Or.inl h
    · refine Or.inr ⟨h1, ?_⟩
      split at h2
      · cases h2
      · next c hc =>
        split at h2
        · cases h2
        · next loc o ha =>
          simp only [Bool.and_eq_true, decide_eq_true_eq, Bool.not_eq_true'] at h2
          obtain ⟨⟨h3, h4⟩, h5⟩ := h2
          exact ⟨c, loc, o, hc, ha, (by intro e; rw [e] at h3; cases h3), h4, h5⟩
  | sync t t' τ => simpa [CLabel.enabledb, CLabel.enabled] using h
  | _ => trivial

theorem wf_of_check {cfg : Config K P} {l : CLabel K P} (h : l.wfb cfg = true) : l.WF cfg := by
  cases l with
  | call t r =>
    cases r with
    | op o => cases o <;> simp_all [CLabel.wfb, CLabel.WF, Op.WF]
    | _ => trivial
  | _ => trivial

/-- State after `i` steps of a concrete run. -/
def cstAt (cfg : Config K P) (ls : List (CLabel K P)) : Nat → CState K P
  | 0 => CState.init
  | i + 1 => match cstep cfg (cstAt cfg ls i) (ls.getD i .idle) with
    | some (s, _) => s
    | none => cstAt cfg ls i

/-- What is observable of step `i` of a concrete run. -/
def cevAt (cfg : Config K P) (ls : List (CLabel K P)) (i : Nat) : Option (Event K P) :=
  match cstep cfg (cstAt cfg ls i) (ls.getD i .idle) with
  | some (_, e) => e
  | none => none

/-- Check of a concrete run, from state `s` on. -/
def cRunOKb (cfg : Config K P) : CState K P → List (CLabel K P) → Bool
  | _, [] => true
  | s, l :: ls => l.enabledb s && l.wfb cfg && match cstep cfg s l with
    | none => false
    | some (s', _) => cRunOKb cfg s' ls

theorem cRun_check {cfg : Config K P} {ls : List (CLabel K P)} : ∀ {l1 l2 : List (CLabel K P)}, ls = l1 ++ l2 →
    cRunOKb cfg (cstAt cfg ls l1.length) l2 = true → ∀ i, l1.length ≤ i → i < ls.length →
    (ls.getD i .idle).enabledb (cstAt cfg ls i) = true ∧ (ls.getD i .idle).wfb cfg = true ∧
    (cstep cfg (cstAt cfg ls i) (ls.getD i .idle)).isSome = true := by
  intro l1 l2
  induction l2 generalizing l1 with
  | nil =>
    intro hl _ i h1 h2
    simp only [List.append_nil] at hl
    subst hl
    omega
  | cons l l2 ih =>
    intro hl h i h1 h2
    have hget : ls.getD l1.length .idle = l := by rw [hl]; simp
    simp only [cRunOKb, Bool.and_eq_true] at h
    obtain ⟨⟨h3, h4⟩, h5⟩ := h
    split at h5
    · cases h5
    · next s' e he =>
      by_cases e1 : i = l1.length
      · subst e1
        rw [hget, he]
        exact ⟨h3, h4, rfl⟩
      · refine ih (l1 := l1 ++ [l]) (by rw [hl]; simp) ?_ i (by simp; omega) h2
        have : cstAt cfg ls (l1 ++ [l]).length = s' := by
          simp only [List.length_append, List.length_cons, List.length_nil, Nat.zero_add, cstAt, hget, he]
        rw [this]; exact h5

/-- A checked run as an execution. -/
def CExec.ofRun (cfg : Config K P) (ls : List (CLabel K P)) (h : cRunOKb cfg CState.init ls = true)
    (gc : ∀ i a, i < ls.length → ls.getD i .idle = .free a → ∃ r tr weak τ, r < i ∧ ls.getD r .idle = .tick tr weak τ ∧
      (cstAt cfg ls r).m.retired a = none ∧ (cstAt cfg ls (r + 1)).m.retired a ≠ none ∧
      ∀ j t p, i ≤ j → j ≤ ls.length → ((cstAt cfg ls j).thr t).pin = some p →
        HB (fun i => ls.getD i .idle) ls.length (tr, r + 1) (t, p + 1)) : CExec cfg where
  len := ls.length
  st := cstAt cfg ls
  lab := fun i => ls.getD i .idle
  ev := cevAt cfg ls
  init := rfl
  step := by
    intro i hi
    obtain ⟨-, -, h3⟩ := cRun_check (ls := ls) (l1 := []) (l2 := ls) rfl h i (Nat.zero_le _) hi
    cases he : cstep cfg (cstAt cfg ls i) (ls.getD i .idle) with
    | none => rw [he] at h3; cases h3
    | some x => simp only [cstAt, cevAt, he]
  enabled := fun i hi => enabled_of_check (cRun_check (ls := ls) (l1 := []) (l2 := ls) rfl h i (Nat.zero_le _) hi).1
  wf := fun i hi => wf_of_check (cRun_check (ls := ls) (l1 := []) (l2 := ls) rfl h i (Nat.zero_le _) hi).2.1
  gc := gc

/-- The session a label is about, if any. -/
def CLabel.thread : CLabel K P → Option Nat
  | .pin t => some t
  | .unpin t => some t
  | .call t _ => some t
  | .tick t _ _ => some t
  | .abort t => some t
  | .sync t _ _ => some t
  | .free _ => none
  | .idle => none

theorem cstep_thread {cfg : Config K P} {s s' : CState K P} {l : CLabel K P} {e : Option (Event K P)}
    (h : cstep cfg s l = some (s', e)) {t : Nat} (ht : l.thread ≠ some t) : s'.thr t = s.thr t := by
  have other : ∀ t0, l.thread = some t0 → t ≠ t0 := by
    intro t0 h0 e; rw [h0, e] at ht; exact ht rfl
  cases l with
  | sync t0 t' τ =>
    simp only [cstep, Option.some.injEq, Prod.mk.injEq] at h
    rw [← h.1]; exact upd_other _ _ (other t0 rfl)
  | free a => simp only [cstep, Option.some.injEq, Prod.mk.injEq] at h; rw [← h.1]; simp only [CState.next, upd_self]
  | idle => simp only [cstep, Option.some.injEq, Prod.mk.injEq] at h; rw [← h.1]; simp only [CState.next, upd_self]
  | pin t0 =>
    simp only [cstep] at h
    split at h <;> simp only [Option.some.injEq, Prod.mk.injEq, reduceCtorEq] at h
    rw [← h.1]; exact upd_other _ _ (other t0 rfl)
  | unpin t0 =>
    simp only [cstep] at h
    split at h <;> simp only [Option.some.injEq, Prod.mk.injEq, reduceCtorEq] at h
    rw [← h.1]; exact upd_other _ _ (other t0 rfl)
  | call t0 r =>
    simp only [cstep] at h
    split at h <;> simp only [Option.some.injEq, Prod.mk.injEq, reduceCtorEq] at h
    rw [← h.1]; exact upd_other _ _ (other t0 rfl)
  | tick t0 weak τ =>
    simp only [cstep] at h
    split at h <;> simp only [Option.some.injEq, Prod.mk.injEq, reduceCtorEq] at h
    rw [← h.1]; exact upd_other _ _ (other t0 rfl)
  | abort t0 =>
    simp only [cstep] at h
    split at h <;> simp only [Option.some.injEq, Prod.mk.injEq, reduceCtorEq] at h
    rw [← h.1]; exact upd_other _ _ (other t0 rfl)

/-- Sessions that nothing is about stay as they are. -/
theorem cstAt_thread {cfg : Config K P} {ls : List (CLabel K P)} {N : Nat}
    (h : ls.all (fun l => match l.thread with | none => true | some t => decide (t < N)) = true) {t : Nat} (ht : N ≤ t) (i : Nat) :
    (cstAt cfg ls i).thr t = CThread.init := by
  induction i with
  | zero => rfl
  | succ i ih =>
    simp only [cstAt]
    split
    · next s e he =>
      rw [cstep_thread he ?_]
      · exact ih
      · intro hth
        by_cases hi : i < ls.length
        · have hmem : ls.getD i .idle ∈ ls := by
            rw [List.getD_eq_getElem?_getD, List.getElem?_eq_getElem hi]
            exact List.getElem_mem hi
          have := (List.all_eq_true.mp h) _ hmem
          rw [hth] at this
          have := decide_eq_true_eq.mp this
          omega
        · rw [List.getD_eq_getElem?_getD, List.getElem?_eq_none (by omega)] at hth
          cases hth
    · exact ih
end Contrie
