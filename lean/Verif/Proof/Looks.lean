import Verif.Spec.Looks
import Verif.Props.Iterate
import Verif.Props.Lookup
/-
Iterations and `is_empty` in terms of the linearization of `Verif/Proof/Lin.lean`: for each key, a lookup at some instant.
-/
set_option linter.unusedSectionVars false
namespace Contrie
open scoped List
variable {K P : Type} [DecidableEq K] {cfg : Config K P} (E : Exec cfg)
namespace Exec

theorem returns_req {id j : Nat} {r : Res P} (hr : E.Returns j id r) : ∃ q, E.Invoked id q ∧ id < j ∧
    (∀ out, r = .list out → q = .iter) ∧ (∀ b, r = .bool b → q = .isEmpty) := by
  obtain ⟨t, c, refs, weak, g1, g2, g3, g4, g5, g6, g7, g8⟩ := E.res hr
  refine ⟨c.req, g8, g7, ?_, ?_⟩
  · rintro out rfl
    simp only [RetOK] at g4
    obtain ⟨-, g4⟩ := g4
    cases hc : c.req with
    | iter => rfl
    | op o => rw [hc] at g4; obtain ⟨ret, h, -⟩ := g4; cases h
    | isEmpty => rw [hc] at g4; obtain ⟨b, h, -⟩ := g4; cases h
  · rintro b rfl
    simp only [RetOK] at g4
    obtain ⟨-, g4⟩ := g4
    cases hc : c.req with
    | isEmpty => rfl
    | op o => rw [hc] at g4; obtain ⟨ret, h, -⟩ := g4; cases h
    | iter => rw [hc] at g4; obtain ⟨b, h, -⟩ := g4; cases h

/-- A list of elements with different keys has one element with a given key, or none. -/
theorem filter_key {key : P → K} {k : K} : ∀ {out : List P} {o : Option P}, (out.map key).Nodup → (∀ p, o = some p → p ∈ out ∧ key p = k) →
    (o = none → ∀ p ∈ out, key p ≠ k) → out.filter (fun p => decide (key p = k)) = o.toList := by
  intro out
  induction out with
  | nil =>
    intro o _ h1 _
    cases o with
    | none => rfl
    | some p => exact absurd (h1 p rfl).1 (by simp)
  | cons q out ih =>
    intro o hn h1 h2
    simp only [List.map_cons, List.nodup_cons] at hn
    by_cases hq : key q = k
    · have ho : o = some q := by
        cases o with
        | none => exact absurd hq (h2 rfl q (List.mem_cons_self ..))
        | some p =>
          obtain ⟨h3, h4⟩ := h1 p rfl
          rcases List.mem_cons.mp h3 with rfl | h3
          · rfl
          · exact absurd (List.mem_map.mpr ⟨p, h3, h4.trans hq.symm⟩) hn.1
      subst ho
      rw [List.filter_cons_of_pos (by simpa using hq)]
      have := ih (o := none) hn.2 (fun p h => by cases h) (fun _ p hp e => hn.1 (List.mem_map.mpr ⟨p, hp, e.trans hq.symm⟩))
      rw [this]; rfl
    · rw [List.filter_cons_of_neg (by simpa using hq)]
      refine ih hn.2 ?_ (fun ho p hp => h2 ho p (List.mem_cons_of_mem _ hp))
      intro p hp
      obtain ⟨h3, h4⟩ := h1 p hp
      rcases List.mem_cons.mp h3 with rfl | h3
      · exact absurd h4 hq
      · exact ⟨h3, h4⟩

/-- For each key, an instant at which call `id` may be said to look it up. -/
theorem exists_look (id : Nat) : ∃ τ : K → Nat, (∀ k, id ≤ τ k) ∧ (∀ k j r, E.Returns j id r → τ k ≤ j) ∧
    (∀ k j out, E.Returns j id (.list out) → out.filter (fun p => decide (cfg.key p = k)) = (E.content (τ k) k).toList) ∧
    (∀ j, E.Returns j id (.bool true) → (∀ k k', τ k = τ k') ∧ ∀ k, E.content (τ k) = AMap.empty) := by
  by_cases h : ∃ j r, E.Returns j id r
  · obtain ⟨j, r, hr⟩ := h
    have uniq : ∀ {j' r'}, E.Returns j' id r' → j' = j ∧ r' = r := by
      intro j' r' h'
      have e := E.res_unique h' hr
      subst e
      have h' : E.ev j' = some (.res id r') := h'
      have hr : E.ev j' = some (.res id r) := hr
      rw [hr] at h'
      injection h' with h'
      injection h' with _ h'
      exact ⟨rfl, h'.symm⟩
    obtain ⟨q, hq, hlt, hq1, hq2⟩ := E.returns_req hr
    cases r with
    | list out =>
      obtain ⟨out', ho, h1, h2, h3⟩ := E.res_iter ((hq1 out rfl) ▸ hq) hr
      cases ho
      have hex : ∀ k, ∃ τ, id ≤ τ ∧ τ ≤ j ∧ out.filter (fun p => decide (cfg.key p = k)) = (E.content τ k).toList := by
        intro k
        by_cases hk : k ∈ out.map cfg.key
        · obtain ⟨p, hp, rfl⟩ := List.mem_map.mp hk
          obtain ⟨τ, t1, t2, t3⟩ := h2 p hp
          refine ⟨τ, t1, t2, filter_key h1 ?_ ?_⟩
          · intro p' e; rw [t3] at e; cases e; exact ⟨hp, rfl⟩
          · intro e; rw [t3] at e; cases e
        · have : ∃ τ, id ≤ τ ∧ τ ≤ j ∧ E.content τ k = none := Classical.byContradiction fun hne =>
            hk (h3 k fun τ t1 t2 e => hne ⟨τ, t1, t2, e⟩)
          obtain ⟨τ, t1, t2, t3⟩ := this
          refine ⟨τ, t1, t2, filter_key h1 ?_ ?_⟩
          · intro p' e; rw [t3] at e; cases e
          · intro _ p hp e; exact hk (List.mem_map.mpr ⟨p, hp, e⟩)
      refine ⟨fun k => (hex k).choose, fun k => (hex k).choose_spec.1, ?_, ?_, ?_⟩
      · intro k j' r' h'; rw [(uniq h').1]; exact (hex k).choose_spec.2.1
      · intro k j' out' h'
        have := (uniq h').2
        cases this
        exact (hex k).choose_spec.2.2
      · intro j' h'; cases (uniq h').2
    | bool b =>
      obtain ⟨b', hb, h1⟩ := C15_is_empty_true E ((hq2 b rfl) ▸ hq) hr
      cases hb
      cases b with
      | false =>
        refine ⟨fun _ => id, fun _ => Nat.le_refl _, ?_, ?_, ?_⟩
        · intro k j' r' h'; rw [(uniq h').1]; exact Nat.le_of_lt hlt
        · intro k j' out' h'; cases (uniq h').2
        · intro j' h'; cases (uniq h').2
      | true =>
        obtain ⟨τ, t1, t2, t3⟩ := h1 rfl
        refine ⟨fun _ => τ, fun _ => t1, ?_, ?_, ?_⟩
        · intro k j' r' h'; rw [(uniq h').1]; exact t2
        · intro k j' out' h'; cases (uniq h').2
        · intro j' h'; exact ⟨fun _ _ => rfl, fun _ => funext t3⟩
    | op ret =>
      refine ⟨fun _ => id, fun _ => Nat.le_refl _, ?_, ?_, ?_⟩
      · intro k j' r' h'; rw [(uniq h').1]; exact Nat.le_of_lt hlt
      · intro k j' out' h'; cases (uniq h').2
      · intro j' h'; cases (uniq h').2
  · exact ⟨fun _ => id, fun _ => Nat.le_refl _, fun k j r h' => absurd ⟨j, r, h'⟩ h, fun k j out h' => absurd ⟨j, _, h'⟩ h, fun j h' => absurd ⟨j, _, h'⟩ h⟩

/-- How many calls of the linearization take effect before instant `τ`. -/
noncomputable def linLen (n τ : Nat) : Nat := ((List.range τ).flatMap (E.linAt n)).length

theorem linLen_mono (n : Nat) {τ τ' : Nat} (h : τ ≤ τ') : E.linLen n τ ≤ E.linLen n τ' := by
  obtain ⟨d, rfl⟩ := Nat.exists_eq_add_of_le h
  induction d with
  | zero => exact Nat.le_refl _
  | succ d ih =>
    refine Nat.le_trans (ih (by omega)) ?_
    unfold linLen
    rw [← Nat.add_assoc, List.range_succ, List.flatMap_append, List.length_append]
    omega

theorem range_split : ∀ {n τ : Nat}, τ ≤ n → ∃ l, List.range n = List.range τ ++ l ∧ ∀ x ∈ l, τ ≤ x ∧ x < n
  | 0, 0, _ => ⟨[], rfl, by simp⟩
  | n + 1, τ, h => by
    by_cases e : τ = n + 1
    · subst e; exact ⟨[], by simp, by simp⟩
    · obtain ⟨l, h1, h2⟩ := range_split (n := n) (τ := τ) (by omega)
      refine ⟨l ++ [n], by rw [List.range_succ, h1, List.append_assoc], ?_⟩
      intro x hx
      rcases List.mem_append.mp hx with hx | hx
      · have := h2 x hx; omega
      · rw [List.mem_singleton] at hx; omega

theorem evBefore_iff {n a b : Nat} : EvBefore ((List.range n).filterMap E.ev) a b ↔
    ∃ i r r', i < b ∧ b < n ∧ E.Returns i a r ∧ E.Invoked b r' := by
  simp only [EvBefore, pair_sublist_filterMap_range]
  constructor
  · rintro ⟨r, r', i, j, h1, h2, h3, h4⟩
    have h5 := ((E.stepOK j).inv b r' h4).1
    rw [E.clock] at h5
    subst h5
    exact ⟨i, r, r', h1, h2, h3, h4⟩
  · rintro ⟨i, r, r', h1, h2, h3, h4⟩
    exact ⟨r, r', i, b, h1, h2, h3, h4⟩

theorem look_at {n τ id j : Nat} {r : Res P} (hr : E.Returns j id r) (hj : j < n) (h1 : id ≤ τ) (h2 : τ ≤ j) :
    Look cfg.key ((List.range n).filterMap E.ev) (E.lin n) (E.linLen n τ) id (E.content τ) := by
  obtain ⟨l, hl, hm⟩ := range_split (n := n) (τ := τ) (by omega)
  have hs : E.lin n = (List.range τ).flatMap (E.linAt n) ++ l.flatMap (E.linAt n) := by
    rw [lin, hl, List.flatMap_append]
  have ht : (E.lin n).take (E.linLen n τ) = (List.range τ).flatMap (E.linAt n) := by
    rw [hs, linLen, List.take_left]
  have hd : (E.lin n).drop (E.linLen n τ) = l.flatMap (E.linAt n) := by
    rw [hs, linLen, List.drop_left]
  refine ⟨?_, ?_, ?_⟩
  · rw [ht]; exact E.legal_aux n τ (by omega)
  · rw [ht]
    intro x hx hb
    obtain ⟨σ, h3, h4⟩ := List.mem_flatMap.mp hx
    have h3 := List.mem_range.mp h3
    have := (E.linAt_facts (by omega) h4).2.1
    obtain ⟨i, r1, r2, g1, g2, g3, g4⟩ := E.evBefore_iff.mp hb
    have := E.res_unique g3 hr
    omega
  · rw [hd]
    intro y hy hb
    obtain ⟨σ, h3, h4⟩ := List.mem_flatMap.mp hy
    have h3 := hm σ h3
    obtain ⟨i, r1, r2, g1, g2, g3, g4⟩ := E.evBefore_iff.mp hb
    have := (E.linAt_facts (by omega) h4).2.2.2 i r1 g3
    omega

theorem looksFit (n : Nat) : ∃ pos, LooksFit cfg.key ((List.range n).filterMap E.ev) (E.lin n) pos := by
  refine ⟨fun id k => E.linLen n ((E.exists_look id).choose k), ?_, ?_, ?_⟩
  · intro id out k hm
    obtain ⟨j, h1, h2⟩ := List.mem_filterMap.mp hm
    have h1 := List.mem_range.mp h1
    obtain ⟨g1, g2, g3, -⟩ := (E.exists_look id).choose_spec
    exact ⟨_, E.look_at h2 h1 (g1 k) (g2 k j _ h2), g3 k j out h2⟩
  · intro id hm
    obtain ⟨j, h1, h2⟩ := List.mem_filterMap.mp hm
    have h1 := List.mem_range.mp h1
    obtain ⟨g1, g2, -, g4⟩ := (E.exists_look id).choose_spec
    obtain ⟨g5, g6⟩ := g4 j h2
    by_cases hK : Nonempty K
    · obtain ⟨k0⟩ := hK
      refine ⟨E.linLen n ((E.exists_look id).choose k0), fun k => by rw [g5 k k0], ?_⟩
      have := E.look_at h2 h1 (g1 k0) (g2 k0 j _ h2)
      rwa [g6 k0] at this
    · refine ⟨E.linLen n id, fun k => absurd ⟨k⟩ hK, ?_⟩
      obtain ⟨q, -, hlt, -⟩ := E.returns_req h2
      have := E.look_at (τ := id) h2 h1 (Nat.le_refl _) (by omega)
      rwa [show E.content id = AMap.empty from funext fun k => absurd ⟨k⟩ hK] at this
  · intro a b k k' hb
    obtain ⟨i, r1, r2, g1, g2, g3, g4⟩ := E.evBefore_iff.mp hb
    refine E.linLen_mono n ?_
    have h1 := (E.exists_look a).choose_spec.2.1 k i r1 g3
    have h2 := (E.exists_look b).choose_spec.1 k'
    omega

end Exec
end Contrie
