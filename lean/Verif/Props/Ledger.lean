import Verif.Proof.LedgerDrop
import Verif.Props.Wild
import Verif.Proof.LedgerRun
/-
C45 and C46: who owns the elements. Whatever the user's code does (`Hash`, `Eq`, `Borrow`, `Clone` answer arbitrarily, closures return anything, all of them may
panic), in whatever order the sessions take their turns, however old the values are that they see: no element is destructed twice, none is destructed as long
as it can be reached (C45). As coded, elements are lost, viz. those of data nodes that could not be published, and those in the map when it is dropped; with
`drop_data` repaired, none is (C46).
-/
set_option linter.unusedSectionVars false
namespace Contrie
variable {K P : Type} [DecidableEq K] (E : WExec K P)

/-- **C45.** The books balance at all times. What callers handed over and what cloning made are, one by one: what was destructed, what was forgotten, what is owned by
calls in progress, and what is in nodes that were not destroyed. (`T`: any set of sessions that contains those with a call in progress.) -/
theorem C45_conservation (fix : Bool) (extra : Nat → List P) {n : Nat} (hn : n ≤ E.len) {T : Finset Nat}
    (hT : ∀ t, ((E.st n).thr t).run ≠ none → t ∈ T) :
    (gained (E.acts fix extra n) : Multiset P) = (dropped (E.acts fix extra n) : Multiset P) + (leaked (E.acts fix extra n) : Multiset P) +
      (∑ t ∈ T, ((E.st n).owned t : Multiset P) + ∑ a ∈ Finset.range (E.st n).m.next, ((E.st n).m.elems a : Multiset P)) := by
  have := E.balance fix extra hn hT
  unfold Balance at this
  rw [add_zero] at this
  rw [this]
  congr 1
  exact add_comm _ _

/-- There is always such a set of sessions. -/
theorem WExec.busy {n : Nat} (hn : n ≤ E.len) : ∃ T : Finset Nat, ∀ t, ((E.st n).thr t).run ≠ none → t ∈ T := by
  classical
  induction n with
  | zero =>
    refine ⟨∅, fun t h => absurd ?_ h⟩
    rw [E.init]; rfl
  | succ n ih =>
    obtain ⟨T, hT⟩ := ih (by omega)
    refine ⟨T ∪ (E.lab n).actor.toFinset, fun t h => ?_⟩
    by_cases ha : (E.lab n).actor = some t
    · exact Finset.mem_union_right _ (by rw [ha]; simp)
    · refine Finset.mem_union_left _ (hT t ?_)
      rw [← wstep_other (E.step n (by omega)) ha]; exact h

theorem WExec.elems_lt {n : Nat} (hn : n ≤ E.len) {a : Nat} {p : P} (hp : p ∈ (E.st n).m.elems a) : a ∈ Finset.range (E.st n).m.next := by
  refine Finset.mem_range.2 (E.mem_lt hn ?_)
  intro h
  simp [Mem.elems, h] at hp

theorem WExec.owned_busy {n t : Nat} {p : P} (hp : p ∈ (E.st n).owned t) : ((E.st n).thr t).run ≠ none := by
  intro h
  simp [CState.owned, h] at hp

/-- **C45.** No element is lost track of: each is destructed, or forgotten, or owned by a call in progress, or in a node that was not destroyed. -/
theorem C45_accounted (fix : Bool) (extra : Nat → List P) {n : Nat} (hn : n ≤ E.len) {p : P} (hp : p ∈ gained (E.acts fix extra n)) :
    p ∈ dropped (E.acts fix extra n) ∨ p ∈ leaked (E.acts fix extra n) ∨ (∃ t, p ∈ (E.st n).owned t) ∨ ∃ a, p ∈ (E.st n).m.elems a := by
  obtain ⟨T, hT⟩ := E.busy hn
  have h := C45_conservation E fix extra hn hT
  have : p ∈ (gained (E.acts fix extra n) : Multiset P) := Multiset.mem_coe.2 hp
  rw [h] at this
  simp only [Multiset.mem_add, Multiset.mem_coe, Multiset.mem_sum] at this
  rcases this with (h | h) | (⟨t, -, h⟩ | ⟨a, -, h⟩)
  · exact Or.inl h
  · exact Or.inr (Or.inl h)
  · exact Or.inr (Or.inr (Or.inl ⟨t, h⟩))
  · exact Or.inr (Or.inr (Or.inr ⟨a, h⟩))

/-- **C45.** Nothing is destructed (or forgotten) that was not handed over or made before, and nothing more often than that. -/
theorem C45_no_more_than_gained [DecidableEq P] (fix : Bool) (extra : Nat → List P) {n : Nat} (hn : n ≤ E.len) (p : P) :
    (dropped (E.acts fix extra n)).count p + (leaked (E.acts fix extra n)).count p ≤ (gained (E.acts fix extra n)).count p := by
  obtain ⟨T, hT⟩ := E.busy hn
  have h := congrArg (Multiset.count p) (C45_conservation E fix extra hn hT)
  simp only [Multiset.count_add, Multiset.coe_count] at h
  omega

section identity
/-! From here on every element has an identity of its own: what callers hand over and what `Clone` makes is always something new. -/
variable (fix : Bool) (extra : Nat → List P) {n : Nat} (hn : n ≤ E.len) (hid : (gained (E.acts fix extra n)).Nodup)
include hn hid

/-- **C45.** No element is destructed twice, or both destructed and forgotten. -/
theorem C45_destructed_once : (dropped (E.acts fix extra n) ++ leaked (E.acts fix extra n)).Nodup := by
  obtain ⟨T, hT⟩ := E.busy hn
  have h := C45_conservation E fix extra hn hT
  have h1 : Multiset.Nodup (gained (E.acts fix extra n) : Multiset P) := Multiset.coe_nodup.2 hid
  rw [h, Multiset.nodup_add] at h1
  have h2 := h1.1
  rwa [Multiset.coe_add, Multiset.coe_nodup] at h2

/-- **C45.** An element in a node that was not destroyed, linked or not, is intact: it was neither destructed nor forgotten; it is in no other node, and there only once;
no call owns it. -/
theorem C45_in_node {a : Nat} {p : P} (hp : p ∈ (E.st n).m.elems a) :
    p ∉ dropped (E.acts fix extra n) ∧ p ∉ leaked (E.acts fix extra n) ∧ (∀ t, p ∉ (E.st n).owned t) ∧ (∀ b, p ∈ (E.st n).m.elems b → b = a) ∧
      ((E.st n).m.elems a).Nodup := by
  classical
  obtain ⟨T, hT⟩ := E.busy hn
  have h := C45_conservation E fix extra hn hT
  have h1 : Multiset.Nodup (gained (E.acts fix extra n) : Multiset P) := Multiset.coe_nodup.2 hid
  have ha := E.elems_lt hn hp
  have hsum : p ∈ ∑ a ∈ Finset.range (E.st n).m.next, ((E.st n).m.elems a : Multiset P) := Multiset.mem_sum.2 ⟨a, ha, Multiset.mem_coe.2 hp⟩
  rw [h, Multiset.nodup_add] at h1
  obtain ⟨-, h2, h3⟩ := h1
  rw [Multiset.nodup_add] at h2
  obtain ⟨-, h4, h5⟩ := h2
  have hno : p ∉ (dropped (E.acts fix extra n) : Multiset P) + (leaked (E.acts fix extra n) : Multiset P) :=
    fun hx => Multiset.disjoint_left.1 h3 hx (Multiset.mem_add.2 (Or.inr hsum))
  rw [Multiset.mem_add, not_or, Multiset.mem_coe, Multiset.mem_coe] at hno
  have hsplit := Finset.add_sum_erase (Finset.range (E.st n).m.next) (fun a => ((E.st n).m.elems a : Multiset P)) ha
  rw [← hsplit, Multiset.nodup_add] at h4
  refine ⟨hno.1, hno.2, ?_, ?_, Multiset.coe_nodup.1 h4.1⟩
  · intro t ht
    exact Multiset.disjoint_left.1 h5 (Multiset.mem_sum.2 ⟨t, hT t (E.owned_busy ht), Multiset.mem_coe.2 ht⟩) hsum
  · intro b hb
    by_contra hne
    exact Multiset.disjoint_left.1 h4.2.2 (Multiset.mem_coe.2 hp)
      (Multiset.mem_sum.2 ⟨b, Finset.mem_erase.2 ⟨hne, E.elems_lt hn hb⟩, Multiset.mem_coe.2 hb⟩)

/-- **C45.** An element owned by a call in progress is intact, and nobody else owns it. -/
theorem C45_in_call {t : Nat} {p : P} (hp : p ∈ (E.st n).owned t) :
    p ∉ dropped (E.acts fix extra n) ∧ p ∉ leaked (E.acts fix extra n) ∧ (∀ a, p ∉ (E.st n).m.elems a) ∧ (∀ u, p ∈ (E.st n).owned u → u = t) := by
  classical
  obtain ⟨T, hT⟩ := E.busy hn
  have h := C45_conservation E fix extra hn hT
  have h1 : Multiset.Nodup (gained (E.acts fix extra n) : Multiset P) := Multiset.coe_nodup.2 hid
  have ha := hT t (E.owned_busy hp)
  have hsum : p ∈ ∑ t ∈ T, ((E.st n).owned t : Multiset P) := Multiset.mem_sum.2 ⟨t, ha, Multiset.mem_coe.2 hp⟩
  rw [h, Multiset.nodup_add] at h1
  obtain ⟨-, h2, h3⟩ := h1
  rw [Multiset.nodup_add] at h2
  obtain ⟨h4, -, -⟩ := h2
  have hno : p ∉ (dropped (E.acts fix extra n) : Multiset P) + (leaked (E.acts fix extra n) : Multiset P) :=
    fun hx => Multiset.disjoint_left.1 h3 hx (Multiset.mem_add.2 (Or.inl hsum))
  rw [Multiset.mem_add, not_or, Multiset.mem_coe, Multiset.mem_coe] at hno
  have hsplit := Finset.add_sum_erase T (fun t => ((E.st n).owned t : Multiset P)) ha
  rw [← hsplit, Multiset.nodup_add] at h4
  refine ⟨hno.1, hno.2, ?_, ?_⟩
  · intro a ha'
    exact (C45_in_node E fix extra hn hid ha').2.2.1 t hp
  · intro u hu
    by_contra hne
    exact Multiset.disjoint_left.1 h4.2.2 (Multiset.mem_coe.2 hp)
      (Multiset.mem_sum.2 ⟨u, Finset.mem_erase.2 ⟨hne, hT u (E.owned_busy hu)⟩, Multiset.mem_coe.2 hu⟩)

omit hid in
/-- **C45.** An element that a call returned a reference to is not destructed as long as the session keeps the guard. -/
theorem C45_returned_intact {j id t : Nat} {r : Res P} {weak : Bool} {τ : Nat} (hjn : j < n) (hr : E.ev j = some (.res id r))
    (hl : E.lab j = .tick t weak τ) {p : P} (hp : p ∈ r.elements) (hk : E.KeepsGuard t j n) (hid : (gained (E.acts fix extra n)).Nodup) :
    p ∉ dropped (E.acts fix extra n) ∧ p ∉ leaked (E.acts fix extra n) := by
  obtain ⟨a, items, h1, h2⟩ := C43_returned_references E (by omega) hr hl hp
  have h3 := h2 n hjn hn hk
  have h4 : p ∈ (E.st n).m.elems a := by
    simp only [Mem.deref] at h3
    split at h3
    · cases h3
    · next hf => simpa [Mem.elems, hf, h3, Node.items] using h1
  have := C45_in_node E fix extra hn hid h4
  exact ⟨this.1, this.2.1⟩

omit hid in
/-- **C45.** Nor is an element that an iteration in progress has yielded. -/
theorem C45_yielded_intact {i t : Nat} {c : Call K P} (hin : i ≤ n) (hc : ((E.st i).thr t).run = some c) {p : P} (hp : p ∈ c.yielded)
    (hk : E.KeepsGuard t i n) (hid : (gained (E.acts fix extra n)).Nodup) :
    p ∉ dropped (E.acts fix extra n) ∧ p ∉ leaked (E.acts fix extra n) := by
  obtain ⟨a, items, h1, h2⟩ := C43_yielded_references E (by omega) hc hp
  have h3 := h2 n hin hn hk
  have h4 : p ∈ (E.st n).m.elems a := by
    simp only [Mem.deref] at h3
    split at h3
    · cases h3
    · next hf => simpa [Mem.elems, hf, h3, Node.items] using h1
  have := C45_in_node E fix extra hn hid h4
  exact ⟨this.1, this.2.1⟩

end identity

/-- **C45.** An element in the map is intact, whoever holds a guard. -/
theorem C45_in_map (fix : Bool) (extra : Nat → List P) {n : Nat} (hn : n ≤ E.len) (hid : (gained (E.acts fix extra n)).Nodup) {a : Nat} {items : List P}
    (hl : Linked (E.st n).m a) (ha : (E.st n).m.mem a = some (.data items)) {p : P} (hp : p ∈ items) :
    p ∉ dropped (E.acts fix extra n) ∧ p ∉ leaked (E.acts fix extra n) := by
  have hf : (E.st n).m.freed a = false := by
    cases hx : (E.st n).m.freed a with
    | false => rfl
    | true => exact absurd hl (C43_destroyed_unlinked E hn hx)
  have h := C45_in_node E fix extra hn hid (a := a) (p := p) (by simpa [Mem.elems, hf, ha, Node.items] using hp)
  exact ⟨h.1, h.2.1⟩

/-! ### Nothing is lost -/

theorem leaked_payloadActs (st : TState K P) (c : P) : leaked (st.payloadActs c) = [] := by
  cases st <;> rfl

theorem leaked_gainsTrav (o : Answers P) (m : Mem P) (st : TState K P) (mode : Mode) (shift : Nat) (cur : Loc) :
    leaked (gainsTrav o m st mode shift cur) = [] := by
  unfold gainsTrav
  repeat' split
  all_goals first
    | rfl
    | exact leaked_payloadActs _ _
    | (simp only [leaked_append, leaked_clones, leaked_payloadActs, List.append_nil])

theorem leaked_lossesTrav (o : Answers P) (m : Mem P) (st : TState K P) (mode : Mode) (shift : Nat) (cur : Loc) :
    leaked (lossesTrav o m st mode shift cur) = [] := by
  unfold lossesTrav
  repeat' split
  all_goals first
    | rfl
    | exact leaked_drops _

/-- What a step forgets was in a data node about to be published. -/
theorem leaked_wacts {fix : Bool} {s : CState K P} {o : Answers P} {extra : List P} {l : CLabel K P} {p : P} (hp : p ∈ leaked (wacts fix s o extra l)) :
    ∃ t c, l.actor = some t ∧ (s.thr t).run = some c ∧ c.pc.abandonable = false ∧ p ∈ c.pc.elems ∧ (l ≠ .abort t → fix = false) := by
  cases l with
  | call t r =>
    exfalso
    cases r with
    | op op => cases op <;> simp [wacts, Req.acts, leaked] at hp
    | _ => simp [wacts, Req.acts, leaked] at hp
  | tick t weak τ =>
    simp only [wacts] at hp
    cases hr : (s.thr t).run with
    | none => simp [hr, leaked] at hp
    | some c =>
      simp only [hr] at hp
      refine ⟨t, c, rfl, hr, ?_⟩
      have hd : ∀ l : List P, p ∈ leaked (discard fix l) → fix = false ∧ p ∈ l := by
        intro l h
        cases fix with
        | true => simp [discard, leaked_drops] at h
        | false => simp only [discard] at h; exact ⟨rfl, by simpa [leaked_leaks] using h⟩
      cases hpc : c.pc with
      | trav st g1 g2 g3 g4 g5 =>
        rw [hpc] at hp
        simp only [tickGains, tickLosses, leaked_append, leaked_gainsTrav, leaked_lossesTrav] at hp
        cases hp
      | travCas st g1 g2 g3 cur g5 node new kind =>
        rw [hpc] at hp
        simp only [tickGains, tickLosses, List.nil_append, lossesTravCas] at hp
        have : p ∈ leaked (discard fix new.items) := by
          split at hp
          · cases hp
          · split at hp
            · split at hp
              · cases hp
              · rw [leaked_drops] at hp; cases hp
            · exact hp
        exact ⟨rfl, List.mem_append_right _ (hd _ this).2, fun _ => (hd _ this).1⟩
      | rem g1 g2 cur g4 =>
        rw [hpc] at hp
        simp only [tickGains, tickLosses, leaked_append, leaked_clones, List.nil_append] at hp
        split at hp
        · rw [leaked_drops] at hp; cases hp
        · cases hp
      | remCas g1 g2 cur g4 node new g7 =>
        rw [hpc] at hp
        simp only [tickGains, tickLosses, List.nil_append, lossesRemCas] at hp
        have : p ∈ leaked (discard fix new) := by
          split at hp
          · cases hp
          · split at hp
            · cases hp
            · exact hp
        exact ⟨rfl, (hd _ this).2, fun _ => (hd _ this).1⟩
      | _ =>
        exfalso
        rw [hpc] at hp
        simp [tickGains, tickLosses, leaked] at hp
  | abort t =>
    simp only [wacts] at hp
    cases hr : (s.thr t).run with
    | none => simp [hr, leaked] at hp
    | some c =>
      simp only [hr, leaked_append, leaked_clones, leaked_drops, List.nil_append] at hp
      refine ⟨t, c, rfl, hr, ?_⟩
      cases hpc : c.pc with
      | travCas st g1 g2 g3 cur g5 node new kind =>
        rw [hpc] at hp
        simp only [PC.unwind, leaked_append, leaked_drops, leaked_leaks, List.nil_append] at hp
        exact ⟨rfl, List.mem_append_right _ hp, fun h => absurd rfl h⟩
      | remCas g1 g2 cur g4 node new g7 =>
        rw [hpc] at hp
        simp only [PC.unwind, leaked_leaks] at hp
        exact ⟨rfl, hp, fun h => absurd rfl h⟩
      | _ =>
        exfalso
        rw [hpc] at hp
        simp only [PC.unwind, leaked_drops] at hp
        cases hp
  | free a => simp only [wacts, leaked_drops] at hp; cases hp
  | _ => exfalso; simp [wacts, leaked] at hp

theorem WExec.leaked_step {fix : Bool} {extra : Nat → List P} {n : Nat} {p : P} (hp : p ∈ leaked (E.acts fix extra n)) :
    ∃ i, i < n ∧ p ∈ leaked (wacts fix (E.st i) (E.ans i) (extra i) (E.lab i)) := by
  induction n with
  | zero => cases hp
  | succ n ih =>
    rw [E.acts_succ, leaked_append, List.mem_append] at hp
    rcases hp with h | h
    · obtain ⟨i, h1, h2⟩ := ih h
      exact ⟨i, by omega, h2⟩
    · exact ⟨n, by omega, h⟩

/-- User code is not run between the moment a data node was made and the moment it is published or not: panics (and abandoned iterators) occur elsewhere. -/
def WExec.PanicsInUserCode (E : WExec K P) (n : Nat) : Prop :=
  ∀ i t c, i < n → E.lab i = .abort t → ((E.st i).thr t).run = some c → c.pc.abandonable = true

/-- **C46**, repaired. With `drop_data` repaired, no operation forgets an element. -/
theorem C46_no_leaks_repaired (extra : Nat → List P) {n : Nat} (hab : E.PanicsInUserCode n) : leaked (E.acts true extra n) = [] := by
  apply List.eq_nil_iff_forall_not_mem.2
  intro p hp
  obtain ⟨i, hi, h⟩ := E.leaked_step hp
  obtain ⟨t, c, h1, h2, h3, -, h4⟩ := leaked_wacts h
  by_cases ha : E.lab i = .abort t
  · rw [hab i t c hi ha h2] at h3; cases h3
  · cases h4 ha

/-- An element stays in its node until it is destructed. -/
theorem WExec.elems_stay (fix : Bool) (extra : Nat → List P) {i n a : Nat} (hin : i ≤ n) (hn : n ≤ E.len) {p : P} (hp : p ∈ (E.st i).m.elems a) :
    p ∈ (E.st n).m.elems a ∨ p ∈ dropped (E.acts fix extra n) := by
  induction hin with
  | refl => exact Or.inl hp
  | @step k hik ih =>
    rcases ih (by omega) with h | h
    · by_cases hl : E.lab k = .free a
      · refine Or.inr ?_
        rw [E.acts_succ, dropped_append]
        refine List.mem_append_right _ ?_
        rw [hl]
        simp only [wacts, dropped_drops]
        exact h
      · refine Or.inl ?_
        have hf : (E.st k).m.freed a = false := by
          cases hx : (E.st k).m.freed a with
          | false => rfl
          | true => simp [Mem.elems, hx] at h
        have hf' : (E.st (k + 1)).m.freed a = false := by
          obtain ⟨m', t, th, h1, -, h3, -⟩ := wstep_next (E.step k (by omega))
          have hm : (E.st (k + 1)).m.freed = m'.freed := by rw [h1]; rfl
          rw [hm]
          rcases h3 with h3 | ⟨b, hb, h3⟩
          · rw [h3]; exact hf
          · rw [h3, upd_other _ _ (by rintro rfl; exact hl hb)]; exact hf
        simp only [Mem.elems, hf, hf'] at h ⊢
        cases hm : (E.st k).m.mem a with
        | none => simp [hm] at h
        | some nd =>
          cases nd with
          | inner c q => simp [hm, Node.items] at h
          | data items =>
            have := (E.winv hn).hist.data (Nat.le_succ k) (Nat.le_refl _) hm
            have h' : (E.st (k + 1)).m.mem a = some (.data items) := this
            simpa [h', hm] using h
    · refine Or.inr ?_
      rw [E.acts_succ, dropped_append]
      exact List.mem_append_left _ h

/-- **C46**, the part that holds as coded: what operations forget (as coded) has never been in the map: it was in a data node that could not be published. -/
theorem C46_leaks_unpublished_partial (fix : Bool) (extra : Nat → List P) {n : Nat} (hn : n ≤ E.len) (hid : (gained (E.acts fix extra n)).Nodup) {p : P}
    (hp : p ∈ leaked (E.acts fix extra n)) {i a : Nat} (hi : i ≤ n) : p ∉ (E.st i).m.elems a := by
  intro hin
  obtain ⟨j, hj, h⟩ := E.leaked_step hp
  obtain ⟨t, c, -, h2, -, h4, -⟩ := leaked_wacts h
  have sub : ∀ k, k ≤ n → (gained (E.acts fix extra k)).Nodup := by
    intro k hk
    refine hid.sublist ?_
    obtain ⟨d, rfl⟩ := Nat.exists_eq_add_of_le hk
    clear hp hid hi h hk hn hj
    induction d with
    | zero => exact List.Sublist.refl _
    | succ d ih => rw [Nat.add_succ, E.acts_succ, gained_append]; exact ih.trans (List.sublist_append_left _ _)
  rcases Nat.le_total i j with hij | hij
  · have ho : p ∈ (E.st j).owned t := by simp only [CState.owned, h2]; exact h4
    obtain ⟨g1, -, g2, -⟩ := C45_in_call E fix extra (by omega) (sub j (by omega)) ho
    rcases E.elems_stay fix extra hij (by omega) hin with h5 | h5
    · exact g2 a h5
    · exact g1 h5
  · rcases E.elems_stay fix extra hi hn hin with h5 | h5
    · exact (C45_in_node E fix extra hn hid h5).2.1 hp
    · exact (List.nodup_append.1 (C45_destructed_once E fix extra hn hid)).2.2 _ h5 _ hp rfl

/-! ### Dropping the trie -/

/-- **C46.** When the trie is dropped (by the repaired code): everything is destructed now, or was destructed before, or was forgotten by an operation
(cf. `C46_no_leaks_repaired`), or is in a retired node the collector has not destroyed yet. -/
theorem C46_drop_accounted (fix : Bool) (extra : Nat → List P) {n : Nat} (hn : n ≤ E.len) (hidle : ∀ t, ((E.st n).thr t).run = none) :
    ∃ m' l, (E.st n).m.drop true = some (m', l) ∧
      (gained (E.acts fix extra n) : Multiset P) = (dropped (E.acts fix extra n) : Multiset P) + (leaked (E.acts fix extra n) : Multiset P) +
        ((destructed l : Multiset P) +
          ∑ a ∈ (Finset.range (E.st n).m.next).filter (fun a => (E.st n).m.retired a ≠ none), ((E.st n).m.elems a : Multiset P)) := by
  obtain ⟨m', l, h1, h2, h3, h4⟩ := C43_drop E true hn
  refine ⟨m', l, h1, ?_⟩
  rw [C45_conservation E fix extra hn (T := ∅) (fun t h => absurd (hidle t) h), Finset.sum_empty, zero_add]
  congr 1
  obtain ⟨-, h5⟩ := dropRec_thorough _ _ _ _ _ h1
  rw [h5, coe_flatMap_sum _ _ h2,
    ← Finset.sum_filter_not_add_sum_filter (Finset.range (E.st n).m.next) (fun a => (E.st n).m.retired a ≠ none)]
  congr 1
  symm
  have : ∑ a ∈ (released l).toFinset, ((E.st n).m.itemsAt a : Multiset P) = ∑ a ∈ (released l).toFinset, ((E.st n).m.elems a : Multiset P) := by
    refine Finset.sum_congr rfl (fun a ha => ?_)
    obtain ⟨-, hf, -⟩ := h4 a (by simpa using ha)
    have : (E.st n).m.itemsAt a = (E.st n).m.elems a := by simp only [Mem.itemsAt, Mem.elems, hf]; rfl
    rw [this]
  rw [this]
  refine Finset.sum_subset ?_ ?_
  · intro a ha
    have ha' : a ∈ released l := by simpa using ha
    obtain ⟨hm, -, -⟩ := h4 a ha'
    refine Finset.mem_filter.2 ⟨Finset.mem_range.2 (E.mem_lt hn hm), ?_⟩
    exact not_not.2 ((h3 a hm).1 ha')
  · intro a ha hna
    obtain ⟨-, hr⟩ := Finset.mem_filter.1 ha
    have hr' := not_not.1 hr
    have : (E.st n).m.mem a = none := by
      by_contra hm
      exact hna (by simpa using (h3 a hm).2 hr')
    simp [Mem.elems, this]

/-- **C46**, repaired. The life of a trie (with `drop_data` repaired): after the trie was dropped and the collector has destroyed all that was retired, everything that was
ever handed over or cloned has been destructed: exactly once. -/
theorem C46_repaired (extra : Nat → List P) {n : Nat} (hn : n ≤ E.len) (hidle : ∀ t, ((E.st n).thr t).run = none)
    (hab : E.PanicsInUserCode n) (hgc : ∀ a, (E.st n).m.retired a ≠ none → (E.st n).m.freed a = true) :
    ∃ m' l, (E.st n).m.drop true = some (m', l) ∧ (dropped (E.acts true extra n) ++ destructed l).Perm (gained (E.acts true extra n)) := by
  obtain ⟨m', l, h1, h2⟩ := C46_drop_accounted E true extra hn hidle
  refine ⟨m', l, h1, ?_⟩
  rw [C46_no_leaks_repaired E extra hab] at h2
  have : ∑ a ∈ (Finset.range (E.st n).m.next).filter (fun a => (E.st n).m.retired a ≠ none), ((E.st n).m.elems a : Multiset P) = 0 := by
    refine Finset.sum_eq_zero (fun a ha => ?_)
    simp [Mem.elems, hgc a (Finset.mem_filter.1 ha).2]
  rw [this, Multiset.coe_nil, add_zero, add_zero, Multiset.coe_add] at h2
  exact (Multiset.coe_eq_coe.1 h2).symm

/-- **C46**, as coded: dropping the trie destructs no element at all. -/
theorem C46_drop_as_coded {n : Nat} (hn : n ≤ E.len) : ∃ m' l, (E.st n).m.drop false = some (m', l) ∧ destructed l = [] := by
  obtain ⟨m', l, h1, -⟩ := C43_drop E false hn
  exact ⟨m', l, h1, dropRec_idle _ _ _ _ _ h1⟩

/-! ### A concrete case -/

/-- User code that behaves, for the key `k`; the second component of an element is its identity, clones get the identities `c`, `c + 1`, ... -/
def careful (k c : Nat) : Answers (Nat × Nat) :=
  ⟨fun p => p.1 != k, fun _ p => p.1 == k, fun _ p => p.1 != k, fun p => BitVec.ofNat 64 p.1, BitVec.ofNat 64 k, fun i p => (p.1, c + i)⟩

/-- Session 0 inserts the key 7, session 1 inserts it again; its first CAS fails, the second succeeds. Then it inserts 8 (there is a split), removes 7; session 0 wants to
insert 9, its `Clone` panics after it was called once. All unpin, the collector destroys what was retired. -/
def exOwnRun : List (WLabel Nat (Nat × Nat)) :=
  [(.pin 0, noAnswers, 0), (.pin 1, noAnswers, 0),
   (.call 0 (.op (.insert (7, 1))), noAnswers, 7), (.tick 0 false 3, careful 7 100, 0), (.tick 0 false 4, noAnswers, 0),
   (.call 1 (.op (.insert (7, 2))), noAnswers, 7), (.tick 1 false 6, careful 7 200, 0), (.tick 1 true 7, noAnswers, 0),
   (.tick 1 false 8, careful 7 300, 0), (.tick 1 false 9, noAnswers, 0),
   (.call 1 (.op (.insert (8, 3))), noAnswers, 8), (.tick 1 false 11, careful 8 400, 0), (.tick 1 false 12, noAnswers, 0),
   (.tick 1 false 13, careful 8 500, 0), (.tick 1 false 14, careful 8 600, 0), (.tick 1 false 15, careful 8 600, 0),
   (.call 0 (.op (.insert (9, 4))), noAnswers, 9), (.abort 0, noAnswers, 0),
   (.unpin 1, noAnswers, 0), (.free 0, noAnswers, 0)]

set_option maxRecDepth 20000 in
def exOwn : WExec Nat (Nat × Nat) := .ofRunGc exOwnRun (by decide)

/-- The clone made before the panic. -/
def exExtra : Nat → List (Nat × Nat) := fun _ => [(9, 700)]

set_option maxRecDepth 20000 in
/-- Non-vacuity: all elements have an identity; the operations destruct six of them, forget one (as coded), and two are in the map. -/
example : (gained (exOwn.acts false exExtra 20)).Nodup ∧
    gained (exOwn.acts false exExtra 20) = [(7, 1), (7, 100), (7, 2), (7, 200), (7, 300), (8, 3), (8, 600), (9, 4), (9, 700)] ∧
    dropped (exOwn.acts false exExtra 20) = [(7, 100), (7, 300), (8, 600), (9, 700), (9, 4), (7, 1)] ∧
    leaked (exOwn.acts false exExtra 20) = [(7, 2)] ∧ (exOwn.st 20).m.elems 1 = [(7, 200)] ∧ (exOwn.st 20).m.elems 3 = [(8, 3)] := by
  decide

set_option maxRecDepth 20000 in
/-- In the middle of all this: the call of session 1 owns an element, and so does the node it is about to publish. -/
example : (exOwn.st 7).owned 1 = [(7, 200), (7, 2)] := by decide

set_option maxRecDepth 20000 in
theorem exOwn_panics : exOwn.PanicsInUserCode 20 := by
  intro i t c hi hl hc
  have h : ∀ i < 20, (match exOwn.lab i with
    | .abort t => (match ((exOwn.st i).thr t).run with | some c => c.pc.abandonable | none => true)
    | _ => true) = true := by decide
  have := h i hi
  simpa only [hl, hc] using this

set_option maxRecDepth 20000 in
/-- **C46**, as coded: operations forget elements. (In `exOwn` a weak CAS fails; the data node that was to be published is dropped as if it were an inner node.) -/
theorem C46_refuted : ∃ (E : WExec Nat (Nat × Nat)) (extra : Nat → List (Nat × Nat)) (p : Nat × Nat),
    E.PanicsInUserCode E.len ∧ (gained (E.acts false extra E.len)).Nodup ∧ p ∈ leaked (E.acts false extra E.len) := by
  refine ⟨exOwn, exExtra, (7, 2), exOwn_panics, by decide, by decide⟩

set_option maxRecDepth 20000 in
theorem exOwn_idle (t : Nat) : ((exOwn.st 20).thr t).run = none := by
  by_cases ht : t ∈ pinners exOwnRun
  · have : ∀ t ∈ pinners exOwnRun, ((exOwn.st 20).thr t).run.isNone = true := by decide
    exact Option.isNone_iff_eq_none.1 (this t ht)
  · cases hr : ((exOwn.st 20).thr t).run with
    | none => rfl
    | some c =>
      obtain ⟨p, hp, -⟩ := (((exOwn.winv (n := 20) (by decide)).sess t).run c hr).pin
      have : ((exOwn.st 20).thr t).pin = none := wstAt_unpinned exOwnRun ht 20
      rw [this] at hp; cases hp

set_option maxRecDepth 20000 in
theorem exOwn_collected (a : Nat) (h : (exOwn.st 20).m.retired a ≠ none) : (exOwn.st 20).m.freed a = true := by
  have hn : 20 ≤ exOwn.len := by decide
  cases hr : (exOwn.st 20).m.retired a with
  | none => exact absurd hr h
  | some τ =>
    have hlt := exOwn.mem_lt hn ((exOwn.memInv hn).retTime a τ hr).2
    have : ∀ a < (exOwn.st 20).m.next, ((exOwn.st 20).m.retired a).isSome = true → (exOwn.st 20).m.freed a = true := by decide
    exact this a hlt (by rw [hr]; rfl)

/-- Non-vacuity of `C46_repaired`: in the end everything is gone. -/
example : ∃ m' l, (exOwn.st 20).m.drop true = some (m', l) ∧
    (dropped (exOwn.acts true exExtra 20) ++ destructed l).Perm (gained (exOwn.acts true exExtra 20)) :=
  C46_repaired exOwn exExtra (by decide) exOwn_idle exOwn_panics exOwn_collected

end Contrie
