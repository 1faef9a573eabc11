import Verif.Props.Serial
import Verif.Spec.Shape
/-
What the check `assert_pruned` (C17, C18) means: nothing more and nothing less than "no condemned cell, and the trie is pruned", stated on the
trie without addresses.
-/
set_option linter.unusedSectionVars false
namespace Contrie
variable {K P : Type} [DecidableEq K] {cfg : Config K P}

/-- No cell of the trie below a cell containing `w` is condemned. -/
inductive Uncondemned (m : Mem P) : Word → Prop
  | mk {w : Word} (hc : w.cond = false)
      (hsub : ∀ a c p, w.ptr = some a → w.data = false → m.deref a = some (.inner c p) → ∀ i, Uncondemned m (c i)) : Uncondemned m w

theorem sum_ge_two {l : List (Fin 16)} {f : Fin 16 → Nat} (hn : l.Nodup) (h : 1 < (l.map f).sum) :
    (∃ i, 2 ≤ f i) ∨ ∃ i j, i ≠ j ∧ 0 < f i ∧ 0 < f j := by
  induction l with
  | nil => simp at h
  | cons a l ih =>
    simp only [List.map_cons, List.sum_cons] at h
    rw [List.nodup_cons] at hn
    rcases Nat.lt_or_ge 1 (f a) with h1 | h1
    · exact .inl ⟨a, h1⟩
    · rcases Nat.eq_zero_or_pos (f a) with h0 | h0
      · exact ih hn.2 (by omega)
      · have h2 : 0 < (l.map f).sum := by omega
        have : ∃ b ∈ l, 0 < f b := by
          apply Classical.byContradiction
          intro hno
          have : (l.map f).sum = 0 := by
            rw [List.sum_eq_zero]
            intro x hx
            obtain ⟨b, hb, rfl⟩ := List.mem_map.mp hx
            have : ¬ 0 < f b := fun h => hno ⟨b, hb, h⟩
            omega
          omega
        obtain ⟨b, hb, hfb⟩ := this
        exact .inr ⟨a, b, fun e => hn.1 (e ▸ hb), h0, hfb⟩

theorem le_sum {l : List (Fin 16)} {f : Fin 16 → Nat} {i : Fin 16} (hi : i ∈ l) : f i ≤ (l.map f).sum := by
  induction l with
  | nil => cases hi
  | cons a l ih =>
    simp only [List.map_cons, List.sum_cons]
    rcases List.mem_cons.mp hi with rfl | hi
    · omega
    · have := ih hi; omega

theorem sum_pair {l : List (Fin 16)} {f : Fin 16 → Nat} {i j : Fin 16} (hij : i ≠ j) (hi : i ∈ l) (hj : j ∈ l) : f i + f j ≤ (l.map f).sum := by
  induction l with
  | nil => cases hi
  | cons a l ih =>
    simp only [List.map_cons, List.sum_cons]
    rcases List.mem_cons.mp hi with rfl | hi'
    · rcases List.mem_cons.mp hj with rfl | hj'
      · exact absurd rfl hij
      · have := le_sum (f := f) hj'; omega
    · rcases List.mem_cons.mp hj with rfl | hj'
      · have := le_sum (f := f) hi'; omega
      · have := ih hi' hj'; omega

theorem HandlePtr.shape {m : Mem P} {w : Word} (h : HandlePtr m w) : Uncondemned m w ∧ ∃ T, HasShape m w T ∧ T.Pruned := by
  induction h with
  | null hc hp => exact ⟨.mk hc (fun a c p h => by rw [hp] at h; cases h), .null, .null hp, trivial⟩
  | data hc hp hd hm hl => exact ⟨.mk hc (fun a c p _ h => by rw [hd] at h; cases h), .leaf _, .leaf hp hd hm, hl⟩
  | @inner w a c p hc hp hd hm hsub hcnt ih =>
    refine ⟨.mk hc ?_, ?_⟩
    · intro a' c' p' h1 _ h2
      rw [hp] at h1; cases h1
      rw [hm] at h2; cases h2
      exact fun i => (ih i).1
    · have hT := fun i => (ih i).2
      refine ⟨.node (fun i => Classical.choose (hT i)), .node hp hd hm (fun i => (Classical.choose_spec (hT i)).1),
        fun i => (Classical.choose_spec (hT i)).2, ?_⟩
      have hch : ∀ i T, HasShape m (c i) T → Classical.choose (hT i) = T := fun i T h => (Classical.choose_spec (hT i)).1.unique h
      have hleaf : ∀ i, 0 < m.dataCnt (c i) → ∃ l, HasShape m (c i) (.leaf l) ∧ l.length = m.dataCnt (c i) := by
        intro i hi
        simp only [Mem.dataCnt] at hi ⊢
        cases hp' : (c i).ptr with
        | none => simp [hp'] at hi
        | some b =>
          cases hd' : (c i).data with
          | false => simp [hp', hd'] at hi
          | true =>
            cases hm' : m.deref b with
            | none => simp [hp', hd', hm'] at hi
            | some n =>
              cases n with
              | inner c2 p2 => simp [hp', hd', hm'] at hi
              | data l => exact ⟨l, .leaf hp' hd' hm', by simp [hm']⟩
      rcases hcnt with hcnt | ⟨i, hi⟩
      · rcases sum_ge_two (List.nodup_finRange 16) hcnt with ⟨i, hi⟩ | ⟨i, j, hij, hi, hj⟩
        · obtain ⟨l, h1, h2⟩ := hleaf i (by omega)
          exact .inr (.inl ⟨i, l, hch i _ h1, by omega⟩)
        · obtain ⟨l, h1, h2⟩ := hleaf i hi
          obtain ⟨l', h1', h2'⟩ := hleaf j hj
          exact .inr (.inr ⟨i, j, l, l', hij, hch i _ h1, hch j _ h1', List.ne_nil_of_length_pos (by omega), List.ne_nil_of_length_pos (by omega)⟩)
      · refine .inl ⟨i, ?_⟩
        have h := hsub i
        cases h with
        | null _ hp' => exact absurd hp' hi.1
        | data _ _ hd' => rw [hi.2] at hd'; cases hd'
        | inner _ hp' hd' hm' hsub' _ =>
          have hs := (Classical.choose_spec (hT i)).1
          show ∃ sub, Classical.choose (hT i) = _
          generalize Classical.choose (hT i) = T at hs
          cases hs with
          | null hp'' => rw [hp'] at hp''; cases hp''
          | leaf _ hd'' => rw [hd'] at hd''; cases hd''
          | node => exact ⟨_, rfl⟩

theorem HandlePtr.of_shape {m : Mem P} {w : Word} {T : Shape P} (h : HasShape m w T) (hu : Uncondemned m w) (hT : T.Pruned) : HandlePtr m w := by
  induction h with
  | null hp => cases hu with | mk hc _ => exact .null hc hp
  | leaf hp hd hm => cases hu with | mk hc _ => exact .data hc hp hd hm hT
  | @node w a c p ch hp hd hm hsub ih =>
    cases hu with
    | mk hc hu =>
      have hcnt : ∀ i l, ch i = .leaf l → m.dataCnt (c i) = l.length := by
        intro i l e
        have := hsub i
        rw [e] at this
        cases this with
        | leaf hp' hd' hm' => simp [Mem.dataCnt, hp', hd', hm']
      refine .inner hc hp hd hm (fun i => ih i (hu a c p hp hd hm i) (hT.1 i)) ?_
      rcases hT.2 with ⟨i, sub, e⟩ | ⟨i, l, e, hl⟩ | ⟨i, j, l, l', hij, e, e', hl, hl'⟩
      · have := hsub i
        rw [e] at this
        cases this with
        | node hp' hd' => exact .inr ⟨i, by rw [hp']; simp, hd'⟩
      · left
        have := le_sum (f := fun i => m.dataCnt (c i)) (List.mem_finRange i)
        simp only [hcnt i l e] at this
        omega
      · left
        have := sum_pair (f := fun i => m.dataCnt (c i)) hij (List.mem_finRange i) (List.mem_finRange j)
        simp only [hcnt i l e, hcnt j l' e'] at this
        have := List.length_pos_of_ne_nil hl
        have := List.length_pos_of_ne_nil hl'
        omega

/-- **C18**, what is checked: `assert_pruned` succeeds if and only if no cell of the trie is condemned, no leaf is empty and every inner node
has an inner node or two elements below it. -/
theorem C18_assert_pruned_iff (m : Mem P) :
    m.AssertPruned ↔ Uncondemned m m.root ∧ ∃ T, HasShape m m.root T ∧ T.Pruned :=
  ⟨HandlePtr.shape, fun ⟨h1, _, h2, h3⟩ => .of_shape h2 h1 h3⟩

/-- **C18**, in terms of shapes. -/
theorem C18_pruned_shape (E : Exec cfg) {n : Nat} (hs : E.RemovalsAlone n) (hq : E.NoUpdate n) :
    Uncondemned (E.st n).m (E.st n).m.root ∧ ∃ T, HasShape (E.st n).m (E.st n).m.root T ∧ T.Pruned :=
  (C18_assert_pruned_iff _).mp (C18_pruned E hs hq)

/-- The definition rejects an inner node with nothing below it, an inner node with one element below it, and empty leaves; it accepts an inner
node with two leaves. -/
example : ¬ (Shape.node (fun _ => .null) : Shape Nat).Pruned ∧
    ¬ (Shape.node (fun i => if i = 3 then .leaf [7] else .null) : Shape Nat).Pruned ∧
    ¬ (Shape.leaf [] : Shape Nat).Pruned ∧
    (Shape.node (fun i => if i = 3 then .leaf [7] else if i = 4 then .leaf [8] else .null) : Shape Nat).Pruned := by
  refine ⟨?_, ?_, ?_, ?_⟩
  · rintro ⟨-, ⟨i, sub, h⟩ | ⟨i, l, h, -⟩ | ⟨i, j, l, l', -, h, -⟩⟩ <;> cases h
  · rintro ⟨-, ⟨i, sub, h⟩ | ⟨i, l, h, hl⟩ | ⟨i, j, l, l', hij, h, h', -⟩⟩
    · simp only at h; split at h <;> cases h
    · simp only at h; split at h <;> cases h; simp at hl
    · simp only at h h'
      split at h
      · split at h'
        · next e e' => exact hij (e.trans e'.symm)
        · cases h'
      · cases h
  · exact fun h => h rfl
  · refine ⟨?_, .inr (.inr ⟨3, 4, [7], [8], by decide, by simp, by simp, by simp, by simp⟩)⟩
    intro i
    simp only
    split
    · simp [Shape.Pruned]
    · split <;> simp [Shape.Pruned]

end Contrie
