import Verif.Proof.Serial
/-
Steps of `remove` and `prune` when updates do not overlap.
-/
set_option linter.unusedSectionVars false
namespace Contrie
variable {K P : Type} [DecidableEq K]
variable {cfg : Config K P} {A : Nat → AMap K P} {W : Nat → Option (LP K P)} {m : Mem P} {weak : Bool}

theorem LevelsNow.len (h : MemInv cfg A m) {hh : BitVec 64} {lv : List (Loc × Word)} (hl : LevelsNow m hh lv) :
    lv.length ≤ 16 := by
  cases lv with
  | nil => simp
  | cons x rest =>
    obtain ⟨loc, w⟩ := x
    obtain ⟨⟨a, c, h1, h2, h3⟩, -⟩ := hl
    have := (h.nodeOK a c _ h2).1
    simp [pre] at this
    simp; omega

/-- The node a removal is about to prune is live. -/
theorem LevelsNow.head_live (h : MemInv cfg A m) {hh : BitVec 64} {loc : Loc} {w : Word} {rest : List (Loc × Word)}
    (hl : LevelsNow m hh ((loc, w) :: rest)) : ∃ a c, w = ⟨some a, false, false⟩ ∧
      m.mem a = some (.inner c (pre hh rest.length)) ∧ m.At loc (pre hh rest.length) w ∧ m.retired a = none ∧
      rest.length < 16 ∧ (pre hh rest.length).length = rest.length := by
  have hlen := hl.len h
  obtain ⟨⟨a, c, h1, h2, h3⟩, -⟩ := hl
  subst h1
  simp at hlen
  exact ⟨a, c, rfl, h2, h3, h.live _ _ a (h.at_follow h3 rfl) rfl, by omega, pre_length _ (by omega)⟩

theorem CountOK.init {m : Mem P} {w : Word} {a : Nat} {c : Fin 16 → Word} {p : List (Fin 16)} (hp : w.ptr = some a)
    (hm : m.mem a = some (.inner c p)) : CountOK m w 0 0 :=
  ⟨a, c, p, hp, hm, by omega, by omega⟩

theorem Acc2.init (m : Mem P) (c : Fin 16 → Word) : Acc2 m c 0 PAcc.init where
  zero := by intro _; rfl
  inner := by intro h; cases h
  leaf := by intro _ h; simp [PAcc.init] at h
  two := by intro _ h; simp [PAcc.init] at h

theorem Acc2.congr {m m' : Mem P} {c c' : Fin 16 → Word} {n : Nat} {acc : PAcc} (h : Acc2 m c n acc)
    (hc : ∀ i, (c' i).ptr = (c i).ptr ∧ (c' i).data = (c i).data)
    (hd : ∀ b l, m.mem b = some (.data l) → m'.mem b = some (.data l)) : Acc2 m' c' n acc where
  zero := h.zero
  inner := by
    intro h1; obtain ⟨j, e1, e2, e3⟩ := h.inner h1
    exact ⟨j, e1, by rw [(hc j).1]; exact e2, by rw [(hc j).2]; exact e3⟩
  leaf := by
    intro h1 h2; obtain ⟨e0, j, e1, e2⟩ := h.leaf h1 h2
    exact ⟨e0, j, e1, by rw [(hc j).1]; exact e2⟩
  two := by
    intro h1 h2
    rcases h.two h1 h2 with ⟨j, b, l, e0, e1, e2, e3, e4⟩ | ⟨j, j', e0, e0', e1, e2, e3⟩
    · exact Or.inl ⟨j, b, l, e0, by rw [(hc j).1]; exact e1, by rw [(hc j).2]; exact e2, hd b l e3, e4⟩
    · exact Or.inr ⟨j, j', e0, e0', e1, by rw [(hc j).1]; exact e2, by rw [(hc j').1]; exact e3⟩

theorem loadData_mem {m : Mem P} {w : Word} {b : Nat} {l : List P} (hp : w.ptr = some b)
    (h : m.loadData w = .ok l) : m.mem b = some (.data l) := by
  simp only [Mem.loadData] at h
  split at h
  · cases h
  · rw [hp] at h
    simp only [Mem.deref] at h
    split at h
    · next e => cases h; split at e
                · cases e
                · exact e
    · cases h

theorem Acc2.push {m : Mem P} {c : Fin 16 → Word} {i : Fin 16} {acc acc' : PAcc} (h : Acc2 m c i.val acc)
    (hne : ∀ b l, (c i).ptr = some b → (c i).data = true → m.mem b = some (.data l) → l ≠ [])
    (hp : acc.push m i (c i) = .ok acc') : Acc2 m c (i.val + 1) acc' := by
  simp only [PAcc.push, erase_ptr, erase_data] at hp
  cases hptr : (c i).ptr with
  | none =>
    simp only [hptr] at hp
    cases hp
    refine ⟨h.zero, ?_, ?_, ?_⟩
    · intro h1; obtain ⟨j, e1, e2⟩ := h.inner h1; exact ⟨j, by omega, e2⟩
    · intro h1 h2; obtain ⟨e0, j, e1, e2⟩ := h.leaf h1 h2; exact ⟨e0, j, by omega, e2⟩
    · intro h1 h2
      rcases h.two h1 h2 with ⟨j, b, l, e0, e1⟩ | ⟨j, j', e0, e0', e1⟩
      · exact Or.inl ⟨j, b, l, by omega, e1⟩
      · exact Or.inr ⟨j, j', by omega, by omega, e1⟩
  | some b =>
    simp only [hptr] at hp
    have hi : (c i).ptr ≠ none := by rw [hptr]; simp
    cases hd : (c i).data with
    | true =>
      simp only [hd, if_true] at hp
      split at hp
      · cases hp
      · next items hload =>
        have hm : m.mem b = some (.data items) := loadData_mem (by simpa using hptr) hload
        cases hp
        refine ⟨?_, ?_, ?_, ?_⟩
        · intro h0
          have := List.length_pos_iff.mpr (hne b items hptr hd hm)
          simp only at h0
          omega
        · intro h1; obtain ⟨j, e1, e2⟩ := h.inner h1; exact ⟨j, by omega, e2⟩
        · intro h1 h2; exact ⟨by simp, i, by omega, hi⟩
        · intro h1 h2
          simp only at h1 h2
          by_cases h3 : 2 ≤ items.length
          · exact Or.inl ⟨i, b, items, by omega, hptr, hd, hm, h3⟩
          · obtain ⟨-, j, e1, e2⟩ := h.leaf h1 (by omega)
            exact Or.inr ⟨j, i, by omega, by omega, by intro e; subst e; omega, e2, hi⟩
    | false =>
      simp only [hd, Bool.false_eq_true, if_false] at hp
      cases hp
      refine ⟨by intro h0; simp at h0, ?_, by intro h1; simp at h1, by intro h1; simp at h1⟩
      intro _; exact ⟨i, by omega, hi, hd⟩

theorem decide_copy {acc : PAcc} {cells : Fin 16 → Word} {r : PruneResult} (h : acc.decide = (.copy cells, r)) :
    r = .copy ∧ ¬ (acc.allowContract = true ∧ acc.childCnt = 1 ∧ acc.lastLeaf ≠ none) ∧
      ¬ (acc.childCnt = 0 ∧ acc.lastLeaf = none) := by
  simp only [PAcc.decide] at h
  split at h
  · cases h
  · cases h
  · next h1 h2 =>
    cases h
    refine ⟨rfl, ?_, ?_⟩
    · rintro ⟨e1, e2, e3⟩
      cases hl : acc.lastLeaf with
      | none => exact e3 hl
      | some l => exact h2 l e1 e2 hl
    · rintro ⟨e1, e2⟩; exact h1 e1 e2

theorem decide_word {acc : PAcc} {w : Word} {r : PruneResult} (h : acc.decide = (.word w, r)) : r ≠ .copy := by
  simp only [PAcc.decide] at h
  split at h <;> cases h <;> intro e <;> cases e

end Contrie
