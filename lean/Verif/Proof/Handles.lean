import Verif.Model.Handles
import Verif.Props.Ledger
import Mathlib.Tactic.Ring
import Mathlib.Tactic.Positivity
import Mathlib.Algebra.Order.BigOperators.Group.Finset
import Mathlib.Algebra.Order.BigOperators.Ring.Finset
/-
Reference counts: the lemmas.
-/
set_option linter.unusedSectionVars false
namespace Contrie
variable {K P : Type} [DecidableEq K] [DecidableEq P]

theorem delta_sum (e : P) (l : List (Act P)) :
    (l.map (Act.delta e)).sum = ((gained l).count e : Int) - (taken l).count e - (dropped l).count e := by
  induction l with
  | nil => simp [gained, taken, dropped]
  | cons x l ih =>
    simp only [List.map_cons, List.sum_cons, ih]
    cases x with
    | take p =>
      simp only [Act.delta, gained, taken, dropped, List.filterMap_cons, List.count_cons]
      split <;> push_cast <;> omega
    | clone p =>
      simp only [Act.delta, gained, taken, dropped, List.filterMap_cons, List.count_cons, beq_iff_eq]
      split <;> push_cast <;> omega
    | drop p =>
      simp only [Act.delta, gained, taken, dropped, List.filterMap_cons, List.count_cons, beq_iff_eq]
      split <;> push_cast <;> omega
    | leak p => simp [Act.delta, gained, taken, dropped]

theorem taken_append (l l' : List (Act P)) : taken (l ++ l') = taken l ++ taken l' := List.filterMap_append

namespace Sharing
variable (S : Sharing K P)

/-- Everything done to payloads in map `m` before instant `n`. -/
def all (m n : Nat) : List (Act P) := (S.run m).acts S.fix (S.extra m) n

theorem all_succ (m n : Nat) : S.all m (n + 1) = S.all m n ++ S.acts m n := (S.run m).acts_succ _ _ _

/-- The handles in hand, in numbers. -/
theorem hand_count {n : Nat} (hn : n ≤ S.len) (e : P) :
    ((S.hand n).count e : Int) + ∑ m ∈ Finset.range S.maps, ((taken (S.all m n)).count e : Int) = ∑ i ∈ Finset.range n, S.userDelta i e := by
  induction n with
  | zero => simp [S.start, all, WExec.acts, taken]
  | succ n ih =>
    have ih := ih (by omega)
    have hg := congrArg (Multiset.count e) (S.gives n (by omega))
    rw [Finset.sum_range_succ, ← ih]
    have hu : (Multiset.count e (handAfter (S.hand n) (S.user n)) : Int) = (S.hand n).count e + S.userDelta n e := by
      have hcons : ∀ x, ((x ::ₘ S.hand n).count e : Int) = (S.hand n).count e + if x = e then 1 else 0 := by
        intro x
        rw [Multiset.count_cons]
        by_cases h : x = e
        · subst h; simp
        · simp [h, Ne.symm h]
      simp only [userDelta]
      cases hu : S.user n with
      | none => simp [handAfter]
      | some u =>
        cases u with
        | new x => simp only [handAfter, UAct.hand, UAct.delta]; exact hcons x
        | clone x => simp only [handAfter, UAct.hand, UAct.delta]; exact hcons x
        | fetch m t x => simp only [handAfter, UAct.hand, UAct.delta]; exact hcons x
        | drop x =>
          have hx := S.inHand n x (by omega) (.inr hu)
          simp only [handAfter, UAct.hand, UAct.delta]
          split
          · next h =>
            subst h
            rw [Multiset.count_erase_self]
            have := Multiset.count_pos.2 hx
            omega
          · next h => rw [Multiset.count_erase_of_ne (Ne.symm h)]; omega
    rw [Multiset.count_add, Multiset.count_sum'] at hg
    have hs : (∑ m ∈ Finset.range S.maps, ((taken (S.all m (n + 1))).count e : Int)) =
        ∑ m ∈ Finset.range S.maps, ((taken (S.all m n)).count e : Int) + ∑ m ∈ Finset.range S.maps, ((taken (S.acts m n)).count e : Int) := by
      rw [← Finset.sum_add_distrib]
      refine Finset.sum_congr rfl (fun m _ => ?_)
      rw [all_succ, taken_append, List.count_append]
      push_cast; rfl
    rw [hs]
    have hg' : ((S.hand (n + 1)).count e : Int) + ∑ m ∈ Finset.range S.maps, ((taken (S.acts m n)).count e : Int) = (S.hand n).count e + S.userDelta n e := by
      simp only [Multiset.coe_count] at hg
      simp only [acts]
      have h2 : ((S.hand (n + 1)).count e : Int) + ∑ m ∈ Finset.range S.maps, ((taken (wacts S.fix ((S.run m).st n) ((S.run m).ans n) (S.extra m n) ((S.run m).lab n))).count e : Int) = Multiset.count e (handAfter (S.hand n) (S.user n)) := by exact_mod_cast hg
      rw [h2]
      exact hu
    omega

/-- What the maps have done, in numbers. -/
theorem map_count (n : Nat) (e : P) : ∑ i ∈ Finset.range n, S.mapDelta i e =
    ∑ m ∈ Finset.range S.maps, (((gained (S.all m n)).count e : Int) - (taken (S.all m n)).count e - (dropped (S.all m n)).count e) := by
  simp only [← delta_sum]
  induction n with
  | zero => simp [all, WExec.acts]
  | succ n ih =>
    rw [Finset.sum_range_succ, ih, mapDelta, ← Finset.sum_add_distrib]
    refine Finset.sum_congr rfl (fun m _ => ?_)
    rw [all_succ, List.map_append, List.sum_append]

/-- The count is what is in hand, in the maps, and forgotten by them. -/
theorem count_eq {n : Nat} (hn : n ≤ S.len) (e : P) {T : Finset Nat} (hT : ∀ m t, m < S.maps → (((S.run m).st n).thr t).run ≠ none → t ∈ T) :
    S.count n e = (S.hand n).count e + ∑ m ∈ Finset.range S.maps, (((leaked (S.all m n)).count e : Int) +
      (∑ t ∈ T, ((((S.run m).st n).owned t).count e : Int) + ∑ a ∈ Finset.range ((S.run m).st n).m.next, ((((S.run m).st n).m.elems a).count e : Int))) := by
  rw [count, Finset.sum_add_distrib, ← S.hand_count hn, map_count, add_assoc, ← Finset.sum_add_distrib]
  congr 1
  refine Finset.sum_congr rfl (fun m hm => ?_)
  have hm := Finset.mem_range.1 hm
  have h := congrArg (Multiset.count e) (C45_conservation (S.run m) S.fix (S.extra m) (le_trans hn (S.covers m hm)) (T := T) (fun t h => hT m t hm h))
  simp only [Multiset.count_add, Multiset.count_sum', Multiset.coe_count] at h
  simp only [all]
  rw [h]
  push_cast
  ring

theorem busy {n : Nat} (hn : n ≤ S.len) : ∃ T : Finset Nat, ∀ m t, m < S.maps → (((S.run m).st n).thr t).run ≠ none → t ∈ T := by
  classical
  have : ∀ M, M ≤ S.maps → ∃ T : Finset Nat, ∀ m t, m < M → (((S.run m).st n).thr t).run ≠ none → t ∈ T := by
    intro M
    induction M with
    | zero => intro _; exact ⟨∅, fun m t h => absurd h (Nat.not_lt_zero _)⟩
    | succ M ih =>
      intro hM
      obtain ⟨T, hT⟩ := ih (by omega)
      obtain ⟨T', hT'⟩ := (S.run M).busy (n := n) (le_trans hn (S.covers M (by omega)))
      refine ⟨T ∪ T', fun m t h hr => ?_⟩
      rcases Nat.lt_succ_iff_lt_or_eq.1 h with h | rfl
      · exact Finset.mem_union_left _ (hT m t h hr)
      · exact Finset.mem_union_right _ (hT' t hr)
  exact this S.maps (Nat.le_refl _)

theorem count_nonneg {n : Nat} (hn : n ≤ S.len) (e : P) : 0 ≤ S.count n e := by
  obtain ⟨T, hT⟩ := S.busy hn
  rw [S.count_eq hn e hT]
  positivity

theorem count_pos_hand {n : Nat} (hn : n ≤ S.len) {e : P} (h : e ∈ S.hand n) : 0 < S.count n e := by
  obtain ⟨T, hT⟩ := S.busy hn
  rw [S.count_eq hn e hT]
  have := Multiset.count_pos.2 h
  positivity

theorem count_pos_map {n m : Nat} (hn : n ≤ S.len) (hm : m < S.maps) {e : P} (h : S.Has m n e) : 0 < S.count n e := by
  obtain ⟨T, hT⟩ := S.busy hn
  rw [S.count_eq hn e hT]
  have : 0 < ∑ m ∈ Finset.range S.maps, (((leaked (S.all m n)).count e : Int) +
      (∑ t ∈ T, ((((S.run m).st n).owned t).count e : Int) + ∑ a ∈ Finset.range ((S.run m).st n).m.next, ((((S.run m).st n).m.elems a).count e : Int))) := by
    refine Finset.sum_pos' (fun m _ => by positivity) ⟨m, Finset.mem_range.2 hm, ?_⟩
    rcases h with ⟨a, ha⟩ | ⟨t, ht⟩
    · have h1 : 0 < ∑ a ∈ Finset.range ((S.run m).st n).m.next, ((((S.run m).st n).m.elems a).count e : Int) := by
        refine Finset.sum_pos' (fun a _ => by positivity) ⟨a, (S.run m).elems_lt (le_trans hn (S.covers m hm)) ha, ?_⟩
        have := List.count_pos_iff.2 ha
        omega
      positivity
    · have h1 : 0 < ∑ t ∈ T, ((((S.run m).st n).owned t).count e : Int) := by
        refine Finset.sum_pos' (fun t _ => by positivity) ⟨t, hT m t hm ((S.run m).owned_busy ht), ?_⟩
        have := List.count_pos_iff.2 ht
        omega
      positivity
  positivity

/-! ### Where clones come from -/

end Sharing

theorem filterAns_sub (f : Nat → P → Bool) : ∀ (n : Nat) (l : List P) (e : P), e ∈ filterAns f n l → e ∈ l := by
  intro n l
  induction l generalizing n with
  | nil => intro e h; exact h
  | cons x l ih =>
    intro e h
    simp only [filterAns] at h
    split at h
    · rcases List.mem_cons.1 h with rfl | h
      · exact List.mem_cons_self
      · exact List.mem_cons_of_mem _ (ih _ e h)
    · exact List.mem_cons_of_mem _ (ih _ e h)

theorem cloneAns_same {f : Nat → P → P} (hf : ∀ n e, f n e = e) : ∀ (n : Nat) (l : List P), cloneAns f n l = l := by
  intro n l
  induction l generalizing n with
  | nil => rfl
  | cons x l ih => simp only [cloneAns, hf, ih]

theorem mem_elems_of_load {m : Mem P} {w : Word} {l : List P} (h : m.loadData w = .ok l) {e : P} (he : e ∈ l) : ∃ a, e ∈ m.elems a := by
  simp only [Mem.loadData] at h
  split at h
  · cases h
  · split at h
    · cases h
    · next a _ =>
      split at h
      · next items hd =>
        cases h
        simp only [Mem.deref] at hd
        split at hd
        · cases hd
        · next hf =>
          refine ⟨a, ?_⟩
          simp only [Mem.elems, hf, hd]
          exact he
      · cases h

theorem elems_seen (s : CState K P) (pc : PC K P) (τ : Nat) (a : Nat) : (s.seen pc τ).elems a = s.m.elems a := by
  unfold CState.seen Mem.see
  split
  · rfl
  · exact elems_write _ _ _ _

theorem payloadActs_clone {st : TState K P} {c e : P} (hc : c = st.payload) (h : Act.clone e ∈ st.payloadActs c) : e ∈ taken (st.payloadActs c) ∨ e ∈ st.elems := by
  subst hc
  cases st with
  | created p => simp only [TState.payloadActs, List.mem_singleton, Act.clone.injEq] at h; subst h; exact .inr (List.mem_singleton.2 rfl)
  | future k f =>
    simp only [TState.payloadActs, List.mem_cons, reduceCtorEq, Act.clone.injEq, List.not_mem_nil, or_false, false_or] at h
    subst h
    exact .inl (List.mem_singleton.2 rfl)

theorem taken_clones (l : List P) : taken (l.map .clone) = ([] : List P) := by
  induction l with
  | nil => rfl
  | cons x l ih => simpa [taken] using ih

theorem taken_drops (l : List P) : taken (l.map .drop) = ([] : List P) := by
  induction l with
  | nil => rfl
  | cons x l ih => simpa [taken] using ih

theorem gainsTrav_clone {o : Answers P} (hcl : ∀ n e, o.clone n e = e) {m : Mem P} {st : TState K P} {mode : Mode} {shift : Nat} {cur : Loc} {e : P} {l : List (Act P)}
    (hl : l = gainsTrav o m st mode shift cur) (h : Act.clone e ∈ l) : e ∈ taken l ∨ e ∈ st.elems ∨ ∃ a, e ∈ m.elems a := by
  unfold gainsTrav at hl
  split at hl
  · subst hl; cases h
  · split at hl
    · subst hl; cases h
    · split at hl
      · subst hl
        rcases payloadActs_clone (hcl _ _) h with h | h
        · exact .inl h
        · exact .inr (.inl h)
      · split at hl
        · split at hl
          · subst hl; cases h
          · subst hl; cases h
          · next d0 rest hld =>
            split at hl
            · subst hl; cases h
            · split at hl
              · dsimp only at hl
                subst hl
                rw [taken_append]
                rw [List.mem_append] at h
                rcases h with h | h
                · rw [cloneAns_same hcl] at h
                  obtain ⟨x, hx, hxe⟩ := List.mem_map.1 h
                  cases hxe
                  exact .inr (.inr (mem_elems_of_load hld (filterAns_sub _ _ _ _ hx)))
                · rcases payloadActs_clone (hcl _ _) h with h | h
                  · exact .inl (List.mem_append_right _ h)
                  · exact .inr (.inl h)
              · subst hl; cases h
        · subst hl; cases h

theorem wacts_clone {fix : Bool} {s : CState K P} {o : Answers P} (hcl : ∀ n e, o.clone n e = e) {extra : List P} {l : CLabel K P} (hl : ∀ t, l ≠ .abort t) {e : P}
    (h : Act.clone e ∈ wacts fix s o extra l) : e ∈ taken (wacts fix s o extra l) ∨ (∃ a, e ∈ s.m.elems a) ∨ ∃ t, e ∈ s.owned t := by
  cases l with
  | call t r =>
    exfalso
    cases r with
    | op op => cases op <;> simp [wacts, Req.acts] at h
    | _ => simp [wacts, Req.acts] at h
  | tick t weak τ =>
    simp only [wacts] at h ⊢
    cases hc : (s.thr t).run with
    | none => rw [hc] at h; cases h
    | some c =>
      simp only [hc] at h ⊢
      rw [taken_append]
      rw [List.mem_append] at h
      have hown : ∀ x, x ∈ c.pc.elems → ∃ t, x ∈ s.owned t := fun x hx => ⟨t, by simp only [CState.owned, hc]; exact hx⟩
      rcases h with h | h
      · cases hpc : c.pc with
        | trav st hash mode shift cur parent =>
          rw [hpc] at h hown
          simp only [tickGains] at h ⊢
          rcases gainsTrav_clone hcl rfl h with h | h | ⟨a, h⟩
          · exact .inl (List.mem_append_left _ h)
          · exact .inr (.inr (hown e h))
          · rw [elems_seen] at h; exact .inr (.inl ⟨a, h⟩)
        | rem k shift cur lv =>
          rw [hpc] at h
          simp only [tickGains, List.mem_map, Act.clone.injEq, exists_eq_right] at h
          unfold clonesRem at h
          split at h
          · cases h
          · split at h
            · cases h
            · split at h
              · cases h
              · split at h
                · split at h
                  · cases h
                  · next items hld =>
                    rw [cloneAns_same hcl] at h
                    obtain ⟨a, ha⟩ := mem_elems_of_load hld (filterAns_sub _ _ _ _ h)
                    rw [elems_seen] at ha
                    exact .inr (.inl ⟨a, ha⟩)
                · cases h
        | _ => rw [hpc] at h; cases h
      · exfalso
        have hd : ∀ l : List P, Act.clone e ∉ l.map Act.drop := by intro l h; obtain ⟨x, -, hx⟩ := List.mem_map.1 h; cases hx
        have hdd : ∀ l : List P, Act.clone e ∉ discard fix l := by
          intro l h
          obtain ⟨x, -, hx⟩ := List.mem_map.1 h
          split at hx <;> cases hx
        cases hpc : c.pc with
        | trav st hash mode shift cur parent =>
          rw [hpc] at h
          simp only [tickLosses, lossesTrav] at h
          repeat' split at h
          all_goals first | cases h | exact hd _ h
        | travCas st hash mode shift cur parent node new kind =>
          rw [hpc] at h
          simp only [tickLosses, lossesTravCas] at h
          repeat' split at h
          all_goals first | cases h | exact hd _ h | exact hdd _ h
        | rem k shift cur lv =>
          rw [hpc] at h
          simp only [tickLosses] at h
          split at h
          · exact hd _ h
          · cases h
        | remCas k shift cur lv node new del =>
          rw [hpc] at h
          simp only [tickLosses, lossesRemCas] at h
          repeat' split at h
          all_goals first | cases h | exact hdd _ h
        | _ => rw [hpc] at h; cases h
  | abort t => exact absurd rfl (hl t)
  | free a => obtain ⟨x, -, hx⟩ := List.mem_map.1 h; cases hx
  | _ => cases h

namespace Sharing
variable (S : Sharing K P)

theorem has_of_ref {m i t : Nat} (hi : i ≤ S.len) (hm : m < S.maps) {e : P} (h : (S.run m).HasRef t i e) : S.Has m i e := by
  have hin : i ≤ (S.run m).len := le_trans hi (S.covers m hm)
  have key : ∃ a items, e ∈ items ∧ ((S.run m).st i).m.deref a = some (.data items) := by
    rcases h with ⟨j, id, r, weak, τ, h1, h2, h3, h4, h5⟩ | ⟨j, c, h1, h2, h3, h4⟩
    · obtain ⟨a, items, g1, g2⟩ := C43_returned_references (S.run m) (by omega) h2 h3 h4
      exact ⟨a, items, g1, g2 i h1 hin h5⟩
    · obtain ⟨a, items, g1, g2⟩ := C43_yielded_references (S.run m) (by omega) h2 h3
      exact ⟨a, items, g1, g2 i h1 hin h4⟩
  obtain ⟨a, items, h1, h2⟩ := key
  refine .inl ⟨a, ?_⟩
  simp only [Mem.deref] at h2
  split at h2
  · cases h2
  · next hf =>
    simp only [Mem.elems, hf, h2]
    exact h1

/-- Right before the maps make their step. -/
theorem mid_eq (i : Nat) (e : P) : S.count (i + 1) e = S.count i e + S.userDelta i e + S.mapDelta i e := by
  simp only [count, Finset.sum_range_succ]
  ring

theorem count_extra (e : P) (l : List P) : (((l.map Act.clone ++ l.map Act.drop).map (Act.delta e)).sum : Int) = 0 := by
  rw [delta_sum]
  simp [taken_append, taken_clones, taken_drops]

/-- No map revives an element nobody has a handle to. -/
theorem mapDelta_le {i : Nat} (hi : i < S.len) {e : P} (h : ∀ m, m < S.maps → ¬ S.Has m i e) (ht : e ∉ handAfter (S.hand i) (S.user i)) : S.mapDelta i e ≤ 0 := by
  have htk : ∀ m, m < S.maps → e ∉ taken (S.acts m i) := by
    intro m hm hx
    apply ht
    rw [← S.gives i hi, Multiset.mem_add]
    exact .inr (Multiset.mem_sum.2 ⟨m, Finset.mem_range.2 hm, hx⟩)
  refine Finset.sum_nonpos (fun m hm => ?_)
  have hm := Finset.mem_range.1 hm
  by_cases ha : ∃ t, (S.run m).lab i = .abort t
  · obtain ⟨t, ha⟩ := ha
    simp only [acts, ha, wacts]
    split
    · simp
    · next c hc =>
      rw [List.map_append, List.sum_append, count_extra, zero_add, delta_sum]
      have : gained c.pc.unwind = [] := by
        cases c.pc <;> simp [PC.unwind, PC.elems]
      rw [this]
      simp only [List.count_nil]
      omega
  · rw [delta_sum]
    have hg : (gained (S.acts m i)).count e = 0 := by
      rw [List.count_eq_zero]
      intro hx
      simp only [gained, List.mem_filterMap] at hx
      obtain ⟨x, hx, hxe⟩ := hx
      cases x with
      | take p => cases hxe; exact htk m hm (List.mem_filterMap.2 ⟨.take e, hx, rfl⟩)
      | clone p =>
        cases hxe
        rcases wacts_clone (fun n e => S.clones m i n e hm hi) (fun t h => ha ⟨t, h⟩) hx with g | g
        · exact htk m hm g
        · exact h m hm g
      | drop p => cases hxe
      | leak p => cases hxe
    rw [hg]
    omega

end Sharing
end Contrie
