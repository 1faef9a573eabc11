import Verif.Spec.LooksWeak
import Verif.Props.Coherent
/-
What iterations and `is_empty` see together under weak memory: the instants of `CExec.Saw` give places in the order of `Verif/Proof/CohLin.lean`.
-/
set_option linter.unusedSectionVars false
namespace Contrie
open scoped List
variable {K P : Type} [DecidableEq K] {cfg : Config K P} (E : CExec cfg)
namespace CExec

theorem readsAt_length_mono (n τ : Nat) {a b : Nat} (h : a ≤ b) : (E.readsAt n τ (List.range a)).length ≤ (E.readsAt n τ (List.range b)).length := by
  obtain ⟨d, rfl⟩ := Nat.exists_eq_add_of_le h
  unfold readsAt
  rw [List.range_add, List.filterMap_append, List.length_append]
  omega

theorem lookPrefix_mono {n σ σ' a b : Nat} (hσ : σ ≤ σ') (ha : a ≤ n) (hab : a ≤ b) : (E.lookPrefix n σ a).length ≤ (E.lookPrefix n σ' b).length := by
  rcases Nat.eq_or_lt_of_le hσ with rfl | hlt
  · have := E.readsAt_length_mono n σ hab
    simp only [lookPrefix, List.length_append]
    omega
  · obtain ⟨d, rfl⟩ : ∃ d, σ' = (σ + 1) + d := ⟨σ' - (σ + 1), by omega⟩
    have h1 := E.readsAt_length_mono n σ ha
    have h2 : (E.readsAt n σ (List.range n)).length ≤ (E.linAt n σ).length := by
      show _ ≤ ((E.readsAt n σ (List.range n)) ++ _).length
      rw [List.length_append]; omega
    have h3 : ((List.range (σ + 1 + d)).flatMap (E.linAt n)).length = ((List.range σ).flatMap (E.linAt n)).length + (E.linAt n σ).length +
        (((List.range d).map (fun x => (σ + 1) + x)).flatMap (E.linAt n)).length := by
      rw [List.range_add, List.flatMap_append, List.range_succ, List.flatMap_append, List.length_append, List.length_append]
      simp
    simp only [lookPrefix, List.length_append]
    omega

/-- What call `id` saw, for each key. -/
theorem exists_saw {n : Nat} (hn : n ≤ E.len) (id : Nat) : ∃ σ : K → Nat,
    (∀ j out, j < n → E.ev j = some (.res id (.list out)) → id < n ∧ ∀ k, (∃ v, E.SawIt n id k v (σ k)) ∧
      (∃ L2, E.lin n = E.lookPrefix n (σ k) id ++ L2 ∧ Legal cfg.key AMap.empty (E.lookPrefix n (σ k) id) (E.A (σ k)) ∧
        (∀ y ∈ L2, y.op.key cfg.key = k → ¬ E.Hb y.id id) ∧ (∀ x ∈ E.lookPrefix n (σ k) id, x.op.key cfg.key = k → ¬ E.Hb id x.id) ∧
        (∀ x ∈ E.lookPrefix n (σ k) id, x.Updates → x.id < j)) ∧
      out.filter (fun p => decide (cfg.key p = k)) = (E.A (σ k) k).toList) ∧
    (∀ j, j < n → E.ev j = some (.res id (.bool true)) → id < n ∧ (∀ k, ∃ v, E.SawIt n id k v (σ k)) ∧ ∃ τ, (∀ k, σ k = τ) ∧
      ∃ L2, E.lin n = E.lookPrefix n τ id ++ L2 ∧ Legal cfg.key AMap.empty (E.lookPrefix n τ id) AMap.empty ∧
        (∀ y ∈ L2, True → ¬ E.Hb y.id id) ∧ (∀ x ∈ E.lookPrefix n τ id, True → ¬ E.Hb id x.id) ∧
        (∀ x ∈ E.lookPrefix n τ id, x.Updates → x.id < j)) := by
  by_cases h : ∃ j, j < n ∧ ((∃ out, E.ev j = some (.res id (.list out))) ∨ E.ev j = some (.res id (.bool true)))
  · obtain ⟨j, hj, h⟩ := h
    have uniq : ∀ {j' r r'}, j' < n → E.ev j = some (.res id r) → E.ev j' = some (.res id r') → j' = j ∧ r' = r := by
      intro j' r r' hj' h1 h2
      have e := E.res_unique (by omega) (by omega) h2 h1
      subst e
      rw [h1] at h2
      injection h2 with h2
      injection h2 with _ h2
      exact ⟨rfl, h2.symm⟩
    rcases h with ⟨out, hr⟩ | hr
    · obtain ⟨t, weak, τ, c, g1, g2, g3, g4, g5, g6, g7⟩ := E.ret (by omega) hr
      cases hreq : c.req with
      | op o => simp only [CExec.OutOK, hreq] at g7; obtain ⟨_, h, -⟩ := g7; cases h
      | isEmpty => simp only [CExec.OutOK, hreq] at g7; obtain ⟨_, h, -⟩ := g7; cases h
      | iter =>
        simp only [CExec.OutOK, hreq] at g7
        obtain ⟨out', ho, h⟩ := g7
        injection ho with ho
        subst ho
        rw [g3] at h
        refine ⟨fun k => (h k).choose_spec.choose, ?_, ?_⟩
        · intro j' out' hj' hr'
          obtain ⟨rfl, e⟩ := uniq hj' hr hr'
          cases e
          refine ⟨by omega, fun k => ?_⟩
          obtain ⟨hs, hv⟩ := (h k).choose_spec.choose_spec
          refine ⟨⟨_, t, j', _, _, g5, g4, hj', hr, hs⟩, ?_, ?_⟩
          · refine E.glimpse_at hn hj' hr (keys := fun k' => k' = k) g5 g4 (show (h k).choose_spec.choose ≤ j' from by have := hs.lt; omega) (v := fun _ => (h k).choose) ?_
            intro k' e; subst e; exact hs
          · rw [hs.val]; exact hv
        · intro j' hj' hr'; cases (uniq hj' hr hr').2
    · obtain ⟨t, weak, τ, c, g1, g2, g3, g4, g5, g6, g7⟩ := E.ret (by omega) hr
      cases hreq : c.req with
      | op o => simp only [CExec.OutOK, hreq] at g7; obtain ⟨_, h, -⟩ := g7; cases h
      | iter => simp only [CExec.OutOK, hreq] at g7; obtain ⟨_, h, -⟩ := g7; cases h
      | isEmpty =>
        simp only [CExec.OutOK, hreq] at g7
        obtain ⟨b, hb, h⟩ := g7
        injection hb with hb
        obtain ⟨σ, hlt, hs⟩ := h hb.symm
        rw [g3] at hs
        have hA : E.A σ = AMap.empty := by funext k; exact (hs k).val
        refine ⟨fun _ => σ, ?_, ?_⟩
        · intro j' out' hj' hr'; cases (uniq hj' hr hr').2
        · intro j' hj' hr'
          obtain ⟨rfl, -⟩ := uniq hj' hr hr'
          refine ⟨by omega, fun k => ⟨_, t, j', _, _, g5, g4, hj', hr, hs k⟩, σ, fun _ => rfl, ?_⟩
          have := E.glimpse_at hn hj' hr g5 g4 (keys := fun _ => True) (by omega) (fun k _ => hs k)
          rwa [hA] at this
  · exact ⟨fun _ => 0, fun j out hj hr => absurd ⟨j, hj, .inl ⟨out, hr⟩⟩ h, fun j hj hr => absurd ⟨j, hj, .inr hr⟩ h⟩

theorem looksFit {n : Nat} (hn : n ≤ E.len) : ∃ pos, CausalLooksFit cfg.key E.ev n E.Hb (E.lin n) pos := by
  have take : ∀ {σ id : Nat} {L2 : List (SOp K P)}, E.lin n = E.lookPrefix n σ id ++ L2 →
      (E.lin n).take (E.lookPrefix n σ id).length = E.lookPrefix n σ id ∧ (E.lin n).drop (E.lookPrefix n σ id).length = L2 := by
    intro σ id L2 h
    rw [h]
    exact ⟨List.take_left, List.drop_left⟩
  refine ⟨fun id k => (E.lookPrefix n ((E.exists_saw hn id).choose k) id).length, ?_, ?_, ?_⟩
  · intro id j out k hj hr
    obtain ⟨-, h⟩ := (E.exists_saw hn id).choose_spec.1 j out hj hr
    obtain ⟨-, ⟨L2, h1, h2, h3, h4, h5⟩, h6⟩ := h k
    obtain ⟨e1, e2⟩ := take h1
    refine ⟨_, ⟨?_, ?_, ?_, ?_⟩, h6⟩
    · rw [e1]; exact h2
    · rw [e2]; exact h3
    · rw [e1]; exact h4
    · rw [e1]; exact h5
  · intro id j hj hr
    obtain ⟨-, -, τ, hτ, L2, h1, h2, h3, h4, h5⟩ := (E.exists_saw hn id).choose_spec.2 j hj hr
    obtain ⟨e1, e2⟩ := take h1
    refine ⟨(E.lookPrefix n τ id).length, fun k => by rw [hτ k], ?_, ?_, ?_, ?_⟩
    · rw [e1]; exact h2
    · rw [e2]; exact h3
    · rw [e1]; exact h4
    · rw [e1]; exact h5
  · intro a b k ha hb h
    have saw : ∀ {id}, Looked E.ev n id → id < n ∧ ∃ v, E.SawIt n id k v ((E.exists_saw hn id).choose k) := by
      rintro id ⟨j, hj, ⟨out, hr⟩ | hr⟩
      · obtain ⟨h1, h⟩ := (E.exists_saw hn id).choose_spec.1 j out hj hr
        exact ⟨h1, (h k).1⟩
      · obtain ⟨h1, h, -⟩ := (E.exists_saw hn id).choose_spec.2 j hj hr
        exact ⟨h1, h k⟩
    obtain ⟨ha, v, hva⟩ := saw ha
    obtain ⟨-, v', hvb⟩ := saw hb
    obtain ⟨j', r', -, -, a3, a4⟩ := h.ret E
    exact E.lookPrefix_mono (SawIt.order hn hva hvb h) (by omega) (by omega)

end CExec
end Contrie
