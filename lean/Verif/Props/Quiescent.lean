import Verif.Props.Serial
/-
C17 (is the trie pruned whenever nobody works on it?): refuted by a concrete schedule; true if removals do not overlap with each other; and
already two overlapping removals break it.
-/
set_option linter.unusedSectionVars false
namespace Contrie
variable {K P : Type} [DecidableEq K] {cfg : Config K P}

/-- No call is in progress. -/
def Exec.Quiescent (E : Exec cfg) (n : Nat) : Prop := ∀ t, ((E.st n).thr t).run = none

/-- No call is abandoned before instant `n`. -/
def Exec.NoAbort (E : Exec cfg) (n : Nat) : Prop := ∀ i, i < n → ∀ t, E.lab i ≠ .abort t

/-- The cell one gets to by walking down from `w`. -/
def Mem.walk (m : Mem P) : Word → List (Fin 16) → Option Word
  | w, [] => some w
  | w, i :: r => match w.ptr with
    | none => none
    | some a => if w.data then none else match m.deref a with
      | some (.inner c _) => Mem.walk m (c i) r
      | _ => none

/-- `assert_pruned` looks at all cells. -/
theorem HandlePtr.clean {m : Mem P} {w w' : Word} {q : List (Fin 16)} (h : HandlePtr m w) (hw : m.walk w q = some w') :
    w'.cond = false := by
  induction q generalizing w with
  | nil =>
    simp only [Mem.walk, Option.some.injEq] at hw
    subst hw
    cases h <;> assumption
  | cons i r ih =>
    simp only [Mem.walk] at hw
    cases h with
    | null hc hp => simp [hp] at hw
    | data hc hp hd => simp [hp, hd] at hw
    | inner hc hp hd hm hsub =>
      simp only [hp, hd, hm] at hw
      exact ih (hsub i) hw

theorem Exec.quiescent_of_list (E : Exec cfg) (N : Nat) {ls : List (Label K P)} (hl : ∀ i, E.lab i = ls.getD i .idle)
    (h : ls.all (fun l => match l with | .call t _ => decide (t < N) | _ => true) = true) {n : Nat}
    (hn : ∀ t, t < N → ((E.st n).thr t).run.isNone = true) : E.Quiescent n := by
  intro t
  cases hc : ((E.st n).thr t).run with
  | none => rfl
  | some c =>
    exfalso
    have h3 := (E.run_inv n hc).2.2
    have : t < N := by
      rw [hl] at h3
      by_cases hi : c.inv < ls.length
      · simp only [List.all_eq_true] at h
        have := h (ls.getD c.inv .idle) (by simp [List.getD, List.getElem?_eq_getElem hi])
        rw [h3] at this
        simpa using this
      · simp [List.getD, List.getElem?_eq_none (Nat.le_of_not_lt hi)] at h3
    have := hn t this
    rw [hc] at this
    cases this

/-- Session 0 inserts three keys: the trie is root → P with P[0] → I, I[0] = key 0, I[1] = key 0x10, P[1] = key 1.
Sessions 1 and 3 remove the keys 0 and 0x10, both up to and including the CAS, so that I is empty.
Then session 2 removes key 1 completely: it replaces P by a copy. Then session 1 and session 3 go on, one after the other: they mark I
as condemned, but fail to remove it from P, which is not a part of the trie any more. -/
def exLeftover : List (Label Nat (Nat × Nat)) :=
  [.pin 0, .pin 1, .pin 2, .pin 3, .call 0 (.op (.insert (0, 1)))] ++ ticks 0 2 ++
  [.call 0 (.op (.insert (0x10, 2)))] ++ ticks 0 8 ++ [.call 0 (.op (.insert (1, 3)))] ++ ticks 0 3 ++
  [.call 1 (.op (.remove 0))] ++ ticks 1 4 ++ [.call 3 (.op (.remove 0x10))] ++ ticks 3 4 ++
  [.call 2 (.op (.remove 1))] ++ ticks 2 36 ++ ticks 1 66 ++ ticks 3 66 ++ [.call 0 .isEmpty, .tick 0 false]

set_option maxRecDepth 40000 in
/-- **C17 is false of the code.** There is a run without panics, spurious CAS failures or anything unusual, after which no call is in
progress, and the map is empty, but the trie is not pruned: `assert_pruned` panics, and `is_empty` returns `false`. -/
theorem C17_refuted : ∃ (E : Exec exCfg) (n : Nat), E.NoAbort n ∧ E.Quiescent n ∧ (∀ k, E.content n k = none) ∧
    ¬ (E.st n).m.AssertPruned ∧
    ∃ id j, n ≤ id ∧ E.Invoked id .isEmpty ∧ E.Returns j id (.bool false) ∧ ∀ i, n ≤ i → i ≤ j → ∀ k, E.content i k = none := by
  obtain ⟨E, h1, h2, h3⟩ := Exec.ofCheck' (cfg := exCfg) 4 (ls := exLeftover) (by decide)
  have hempty : ∀ i, (∀ k, k = 0 ∨ k = 0x10 ∨ k = 1 → (stAt exCfg exLeftover i).content exCfg k = none) →
      ∀ k, E.content i k = none := by
    intro i hi k
    apply Classical.byContradiction
    intro e
    have hk := E.content_named h3 e
    simp [exLeftover, ticks, exCfg, Op.key] at hk
    apply e
    simp only [Exec.content, h1]
    exact hi k (by omega)
  refine ⟨E, 199, ?_, E.quiescent_of_list 4 h3 (by decide) ?_, hempty 199 ?_, ?_, 199, 200, by omega, ?_, ?_, ?_⟩
  · intro i _ t
    rw [h3]
    intro e
    have hm : Label.abort t ∈ exLeftover := by
      by_cases hi : i < exLeftover.length
      · simp only [List.getD, List.getElem?_eq_getElem hi, Option.getD_some] at e
        rw [← e]; exact List.getElem_mem hi
      · simp [List.getD, List.getElem?_eq_none (Nat.le_of_not_lt hi)] at e
    simp [exLeftover, ticks] at hm
  · simp only [h1]; decide
  · rintro k (rfl | rfl | rfl) <;> decide
  · intro h
    have := h.clean (q := [0, 0]) (w' := ⟨none, true, false⟩) (by rw [h1]; decide)
    cases this
  · simp only [Exec.Invoked, h2]; rfl
  · simp only [Exec.Returns, h2]; rfl
  · intro i h4 h5
    have : i = 199 ∨ i = 200 := by omega
    rcases this with rfl | rfl
    · refine hempty 199 ?_
      rintro k (rfl | rfl | rfl) <;> decide
    · refine hempty 200 ?_
      rintro k (rfl | rfl | rfl) <;> decide

/-- **C17**, the part that is true of the code: if no two removals overlap (insertions may overlap with each other, with the removals and
with everything else) and none is abandoned, then the trie is pruned and `is_empty` is exact whenever no update is in progress.
Missing: executions with overlapping removals, see `C17_refuted` and `C17_two_removals_refuted`. -/
theorem C17_pruned_partial (E : Exec cfg) {n : Nat} (hs : E.RemovalsAlone n) (hq : E.NoUpdate n) :
    (E.st n).m.AssertPruned ∧ ((E.st n).m.root.ptr = none ↔ ∀ k, E.content n k = none) ∧
    ∀ id b, E.Invoked id .isEmpty → E.Returns n id (.bool b) → (b = true ↔ ∀ k, E.content n k = none) := by
  refine ⟨C18_pruned E hs hq, E.root_null_iff hs hq, ?_⟩
  intro id b h1 h2
  obtain ⟨b', e1, e2⟩ := C16_is_empty_exact E h1 h2 hs hq
  cases e1
  exact e2

/-- As `exLeftover`, but without session 3: two overlapping removals are enough to leave a condemned node with one element behind. -/
def exLeftover2 : List (Label Nat (Nat × Nat)) :=
  [.pin 0, .pin 1, .pin 2, .call 0 (.op (.insert (0, 1)))] ++ ticks 0 2 ++
  [.call 0 (.op (.insert (0x10, 2)))] ++ ticks 0 8 ++ [.call 0 (.op (.insert (1, 3)))] ++ ticks 0 3 ++
  [.call 1 (.op (.remove 0))] ++ ticks 1 4 ++ [.call 2 (.op (.remove 1))] ++ ticks 2 36 ++ ticks 1 66

set_option maxRecDepth 40000 in
/-- The hypothesis of `C17_pruned_partial` cannot be weakened to "at most two removals overlap". -/
theorem C17_two_removals_refuted : ∃ (E : Exec exCfg) (n : Nat), E.NoAbort n ∧ E.Quiescent n ∧
    (∀ i t c, ((E.st i).thr t).run = some c → c.req.isRemove = true → t = 1 ∨ t = 2) ∧ ¬ (E.st n).m.AssertPruned := by
  obtain ⟨E, h1, h2, h3⟩ := Exec.ofCheck' (cfg := exCfg) 3 (ls := exLeftover2) (by decide)
  have hmem : ∀ i, E.lab i = .idle ∨ E.lab i ∈ exLeftover2 := by
    intro i
    rw [h3]
    by_cases hi : i < exLeftover2.length
    · right; rw [List.getD, List.getElem?_eq_getElem hi]; exact List.getElem_mem hi
    · left; rw [List.getD, List.getElem?_eq_none (Nat.le_of_not_lt hi)]; rfl
  refine ⟨E, 127, ?_, E.quiescent_of_list 3 h3 (by decide) ?_, ?_, ?_⟩
  · intro i _ t e
    rcases hmem i with e2 | e2
    · rw [e] at e2; cases e2
    · rw [e] at e2; simp [exLeftover2, ticks] at e2
  · simp only [h1]; decide
  · intro i t c hc hr
    obtain ⟨-, -, e3⟩ := E.run_inv i hc
    obtain ⟨k, hk⟩ := isRemove_key hr
    rcases hmem c.inv with e2 | e2
    · rw [e3] at e2; cases e2
    · rw [e3, hk] at e2
      simp [exLeftover2, ticks] at e2
      omega
  · intro h
    have := h.clean (q := [0, 0]) (w' := ⟨none, true, false⟩) (by rw [h1]; decide)
    cases this

end Contrie
