import Verif.Proof.Ledger
/-
The elements destructed when the trie is dropped (by the repaired code).
-/
set_option linter.unusedSectionVars false
namespace Contrie
variable {K P : Type}

/-- The elements in a block of memory. -/
def Mem.itemsAt (m : Mem P) (a : Nat) : List P := match m.mem a with
  | some n => n.items
  | none => []

/-- What is destructed are the elements of the data nodes released, in order. -/
def Thorough (m m' : Mem P) (l : List (Release P)) : Prop :=
  m'.mem = m.mem ∧ destructed l = (released l).flatMap m.itemsAt

theorem itemsAt_congr {m m' : Mem P} (h : m'.mem = m.mem) : m'.itemsAt = m.itemsAt := by
  funext a; simp only [Mem.itemsAt, h]

theorem Thorough.append {m m1 m2 : Mem P} {l l' : List (Release P)} (h : Thorough m m1 l) (h' : Thorough m1 m2 l') : Thorough m m2 (l ++ l') := by
  refine ⟨h'.1.trans h.1, ?_⟩
  rw [destructed_append, released_append, List.flatMap_append, h.2, h'.2, itemsAt_congr h.1]

theorem dropCells_thorough {rec : Mem P → Word → Option (Mem P × List (Release P))}
    (hrec : ∀ m w m' l, rec m w = some (m', l) → Thorough m m' l) (a : Nat) :
    ∀ (is : List (Fin 16)) (m m' : Mem P) (l : List (Release P)), m.dropCells rec a is = some (m', l) → Thorough m m' l := by
  intro is
  induction is with
  | nil => intro m m' l h; simp only [Mem.dropCells, Option.some.injEq, Prod.mk.injEq] at h; rw [← h.1, ← h.2]; exact ⟨rfl, rfl⟩
  | cons i is ih =>
    intro m m' l h
    simp only [Mem.dropCells] at h
    cases hr : m.read (.slot a i) with
    | none => simp [hr] at h
    | some w =>
      simp only [hr] at h
      cases h1 : rec m w with
      | none => simp [h1] at h
      | some x =>
        obtain ⟨m1, l1⟩ := x
        simp only [h1] at h
        cases h2 : m1.dropCells rec a is with
        | none => simp [h2] at h
        | some y =>
          obtain ⟨m2, l2⟩ := y
          simp only [h2, Option.some.injEq, Prod.mk.injEq] at h
          rw [← h.1, ← h.2]
          exact (hrec _ _ _ _ h1).append (ih _ _ _ h2)

theorem dropNode_thorough {rec : Mem P → Word → Option (Mem P × List (Release P))}
    (hrec : ∀ m w m' l, rec m w = some (m', l) → Thorough m m' l) {m m' : Mem P} {w : Word} {l : List (Release P)}
    (h : m.dropNode true rec w = some (m', l)) : Thorough m m' l := by
  unfold Mem.dropNode at h
  cases hp : w.ptr with
  | none => simp only [hp, Option.some.injEq, Prod.mk.injEq] at h; rw [← h.1, ← h.2]; exact ⟨rfl, rfl⟩
  | some a =>
    simp only [hp] at h
    by_cases hd : w.data = true
    · simp only [if_pos hd] at h
      split at h
      · next items hda =>
        simp only [Option.some.injEq, Prod.mk.injEq] at h
        rw [← h.1, ← h.2]
        refine ⟨rfl, ?_⟩
        rw [destructed_dropData, if_pos rfl, released_dropData]
        have : m.mem a = some (.data items) := by
          simp only [Mem.deref] at hda
          split at hda
          · cases hda
          · exact hda
        simp [Mem.itemsAt, this, Node.items]
      · cases h
    · simp only [if_neg hd] at h
      cases h1 : m.dropCells rec a (List.finRange 16) with
      | none => simp [h1] at h
      | some x =>
        obtain ⟨m1, l1⟩ := x
        simp only [h1] at h
        split at h
        · next c q hda =>
          simp only [Option.some.injEq, Prod.mk.injEq] at h
          rw [← h.1, ← h.2]
          refine (dropCells_thorough hrec a _ _ _ _ h1).append (m2 := m1.destroy a) ⟨rfl, ?_⟩
          have : m1.mem a = some (.inner c q) := by
            simp only [Mem.deref] at hda
            split at hda
            · cases hda
            · exact hda
          simp [destructed, released, Mem.itemsAt, this, Node.items]
        · cases h

theorem dropRec_thorough (fuel : Nat) : ∀ (m m' : Mem P) (w : Word) (l : List (Release P)), Mem.dropRec true fuel m w = some (m', l) → Thorough m m' l := by
  induction fuel with
  | zero => intro m m' w l h; exact dropNode_thorough (fun _ _ _ _ h => by cases h) h
  | succ fuel ih => intro m m' w l h; exact dropNode_thorough (fun m w m' l h => ih m m' w l h) h

/-- As coded, no element is destructed. -/
theorem dropCells_idle {rec : Mem P → Word → Option (Mem P × List (Release P))}
    (hrec : ∀ m w m' l, rec m w = some (m', l) → destructed l = []) (a : Nat) :
    ∀ (is : List (Fin 16)) (m m' : Mem P) (l : List (Release P)), m.dropCells rec a is = some (m', l) → destructed l = [] := by
  intro is
  induction is with
  | nil => intro m m' l h; simp only [Mem.dropCells, Option.some.injEq, Prod.mk.injEq] at h; rw [← h.2]; rfl
  | cons i is ih =>
    intro m m' l h
    simp only [Mem.dropCells] at h
    cases hr : m.read (.slot a i) with
    | none => simp [hr] at h
    | some w =>
      simp only [hr] at h
      cases h1 : rec m w with
      | none => simp [h1] at h
      | some x =>
        obtain ⟨m1, l1⟩ := x
        simp only [h1] at h
        cases h2 : m1.dropCells rec a is with
        | none => simp [h2] at h
        | some y =>
          obtain ⟨m2, l2⟩ := y
          simp only [h2, Option.some.injEq, Prod.mk.injEq] at h
          rw [← h.2, destructed_append, hrec _ _ _ _ h1, ih _ _ _ h2]; rfl

theorem dropRec_idle (fuel : Nat) : ∀ (m m' : Mem P) (w : Word) (l : List (Release P)), Mem.dropRec false fuel m w = some (m', l) → destructed l = [] := by
  have aux : ∀ {rec : Mem P → Word → Option (Mem P × List (Release P))} (_ : ∀ m w m' l, rec m w = some (m', l) → destructed l = [])
      (m m' : Mem P) (w : Word) (l : List (Release P)), m.dropNode false rec w = some (m', l) → destructed l = [] := by
    intro rec hrec m m' w l h
    unfold Mem.dropNode at h
    cases hp : w.ptr with
    | none => simp only [hp, Option.some.injEq, Prod.mk.injEq] at h; rw [← h.2]; rfl
    | some a =>
      simp only [hp] at h
      by_cases hd : w.data = true
      · simp only [if_pos hd] at h
        split at h
        · simp only [Option.some.injEq, Prod.mk.injEq] at h
          rw [← h.2]; simp [dropData, destructed]
        · cases h
      · simp only [if_neg hd] at h
        cases h1 : m.dropCells rec a (List.finRange 16) with
        | none => simp [h1] at h
        | some x =>
          obtain ⟨m1, l1⟩ := x
          simp only [h1] at h
          split at h
          · simp only [Option.some.injEq, Prod.mk.injEq] at h
            rw [← h.2, destructed_append, dropCells_idle hrec a _ _ _ _ h1]; simp [destructed]
          · cases h
  induction fuel with
  | zero => intro m m' w l h; exact aux (fun _ _ _ _ h => by cases h) _ _ _ _ h
  | succ fuel ih => intro m m' w l h; exact aux (fun m w m' l h => ih m m' w l h) _ _ _ _ h

theorem coe_flatMap_sum (f : Nat → List P) : ∀ (l : List Nat), l.Nodup → ((l.flatMap f : List P) : Multiset P) = ∑ a ∈ l.toFinset, (f a : Multiset P) := by
  intro l
  induction l with
  | nil => intro _; rfl
  | cons a l ih =>
    intro h
    have h' := List.nodup_cons.1 h
    rw [List.toFinset_cons, Finset.sum_insert (by simpa using h'.1), List.flatMap_cons, ← Multiset.coe_add, ih h'.2]

end Contrie
