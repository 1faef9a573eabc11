import Verif.Props.Wild
/-
Concrete runs in which the collector takes part.
-/
set_option linter.unusedSectionVars false
namespace Contrie
variable {K P : Type}

/-- The label of step `i`. -/
def wlabAt (ls : List (WLabel K P)) (i : Nat) : WLabel K P := ls.getD i (.idle, noAnswers, 0)

/-- The sessions that pin themselves. -/
def pinners (ls : List (WLabel K P)) : List Nat := ls.filterMap (fun x => match x.1 with | .pin t => some t | _ => none)

/-- Check that step `i` can be taken. -/
def wStepOKb (ls : List (WLabel K P)) (i : Nat) : Bool :=
  (wlabAt ls i).1.enabledb (wstAt ls i) && (wstep (wstAt ls i) (wlabAt ls i).2.1 (wlabAt ls i).2.2 (wlabAt ls i).1).isSome

/-- Check of a step of the collector: the node was retired before, and from now on nobody is pinned. -/
def wFreeOKb (ls : List (WLabel K P)) (i : Nat) : Bool := match (wlabAt ls i).1 with
  | .free a =>
    (List.range i).any (fun r => (match (wlabAt ls r).1 with | .tick _ _ _ => true | _ => false) && ((wstAt ls r).m.retired a).isNone &&
      ((wstAt ls (r + 1)).m.retired a).isSome) &&
    (List.range (ls.length + 1)).all (fun j => decide (j < i) || (pinners ls).all (fun t => ((wstAt ls j).thr t).pin.isNone))
  | _ => true

theorem wstep_pin {s s' : CState K P} {o : Answers P} {hh : BitVec 64} {l : CLabel K P} {e : Option (Event K P)}
    (h : wstep s o hh l = some (s', e)) {u : Nat} (hu : l ≠ .pin u) (hp : (s.thr u).pin = none) : (s'.thr u).pin = none := by
  have key : ∀ (m' : Mem P) (t : Nat) (th : CThread K P), s' = s.next m' t th → (t = u → th.pin = none) → (s'.thr u).pin = none := by
    intro m' t th e1 e2
    rw [e1]
    by_cases et : u = t
    · subst et; simp only [CState.next, upd_same]; exact e2 rfl
    · simp only [CState.next, upd_other _ _ et]; exact hp
  cases l with
  | pin t =>
    simp only [wstep] at h
    split at h <;> simp only [Option.some.injEq, Prod.mk.injEq, reduceCtorEq] at h
    exact key _ _ _ h.1.symm (by rintro rfl; exact absurd rfl hu)
  | unpin t =>
    simp only [wstep] at h
    split at h <;> simp only [Option.some.injEq, Prod.mk.injEq, reduceCtorEq] at h
    exact key _ _ _ h.1.symm (fun _ => rfl)
  | call t r =>
    simp only [wstep] at h
    split at h <;> simp only [Option.some.injEq, Prod.mk.injEq, reduceCtorEq] at h
    exact key _ _ _ h.1.symm (by rintro rfl; exact hp)
  | tick t weak τ =>
    simp only [wstep] at h
    split at h <;> simp only [Option.some.injEq, Prod.mk.injEq, reduceCtorEq] at h
    refine key _ _ _ h.1.symm ?_
    rintro rfl
    unfold CThread.wapply
    split
    · rfl
    · unfold CThread.apply
      split <;> exact hp
  | abort t =>
    simp only [wstep] at h
    split at h <;> simp only [Option.some.injEq, Prod.mk.injEq, reduceCtorEq] at h
    exact key _ _ _ h.1.symm (fun _ => rfl)
  | sync t t' τ =>
    simp only [wstep, Option.some.injEq, Prod.mk.injEq] at h
    exact key _ _ _ h.1.symm (by rintro rfl; exact hp)
  | free a =>
    simp only [wstep, Option.some.injEq, Prod.mk.injEq] at h
    exact key _ _ _ h.1.symm (by rintro rfl; exact hp)
  | idle =>
    simp only [wstep, Option.some.injEq, Prod.mk.injEq] at h
    exact key _ _ _ h.1.symm (by rintro rfl; exact hp)

theorem mem_pinners {ls : List (WLabel K P)} {i t : Nat} (h : (wlabAt ls i).1 = .pin t) : t ∈ pinners ls := by
  unfold wlabAt at h
  by_cases hi : i < ls.length
  · have : ls.getD i (.idle, noAnswers, 0) = ls[i] := by simp [List.getD, hi]
    rw [this] at h
    refine List.mem_filterMap.2 ⟨ls[i], List.getElem_mem hi, ?_⟩
    rw [h]
  · have : ls.getD i (.idle, noAnswers, 0) = (.idle, noAnswers, 0) := by simp [List.getD, Nat.le_of_not_lt hi]
    rw [this] at h; cases h

theorem wstAt_unpinned (ls : List (WLabel K P)) {t : Nat} (ht : t ∉ pinners ls) (j : Nat) : ((wstAt ls j).thr t).pin = none := by
  induction j with
  | zero => rfl
  | succ j ih =>
    simp only [wstAt]
    split
    · next s e he => exact wstep_pin he (fun h => ht (mem_pinners (i := j) h)) ih
    · exact ih

/-- A checked run as an execution. -/
def WExec.ofRunGc [DecidableEq K] (ls : List (WLabel K P)) (h : (List.range ls.length).all (fun i => wStepOKb ls i && wFreeOKb ls i) = true) :
    WExec K P where
  len := ls.length
  st := wstAt ls
  lab := fun i => (wlabAt ls i).1
  ans := fun i => (wlabAt ls i).2.1
  hash := fun i => (wlabAt ls i).2.2
  ev := wevAt ls
  init := rfl
  step := by
    intro i hi
    have h1 := List.all_eq_true.1 h i (List.mem_range.2 hi)
    simp only [Bool.and_eq_true, wStepOKb] at h1
    obtain ⟨⟨-, h3⟩, -⟩ := h1
    show wstep _ _ _ _ = _
    cases he : wstep (wstAt ls i) (wlabAt ls i).2.1 (wlabAt ls i).2.2 (wlabAt ls i).1 with
    | none => rw [he] at h3; cases h3
    | some x =>
      unfold wlabAt at he
      simp only [wstAt, wevAt, he]
  enabled := by
    intro i hi
    have h1 := List.all_eq_true.1 h i (List.mem_range.2 hi)
    simp only [Bool.and_eq_true, wStepOKb] at h1
    exact enabled_of_check h1.1.1
  gc := by
    intro i a hi e
    have h1 := List.all_eq_true.1 h i (List.mem_range.2 hi)
    simp only [Bool.and_eq_true, wFreeOKb, e] at h1
    obtain ⟨-, h2, h3⟩ := h1
    obtain ⟨r, hr, h4⟩ := List.any_eq_true.1 h2
    simp only [Bool.and_eq_true] at h4
    obtain ⟨⟨h4, h5⟩, h6⟩ := h4
    cases hl : (wlabAt ls r).1 with
    | tick tr weak τ =>
      refine ⟨r, tr, weak, τ, List.mem_range.1 hr, hl, Option.isNone_iff_eq_none.1 h5, ?_, ?_⟩
      · intro hx; rw [hx] at h6; cases h6
      · intro j t p hij hj hp
        exfalso
        by_cases ht : t ∈ pinners ls
        · have h7 := List.all_eq_true.1 h3 j (List.mem_range.2 (by omega))
          simp only [Bool.or_eq_true, decide_eq_true_eq] at h7
          rcases h7 with h7 | h7
          · omega
          · have h8 := List.all_eq_true.1 h7 t ht
            rw [hp] at h8; cases h8
        · rw [wstAt_unpinned ls ht j] at hp; cases hp
    | _ => simp [hl] at h4

end Contrie
