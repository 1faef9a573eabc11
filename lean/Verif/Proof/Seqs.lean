import Verif.Spec.Linearizable
/-
Facts about legal sequences of operations on a plain map (pure specification level).
-/
set_option linter.unusedSectionVars false
namespace Contrie
variable {K P : Type} [DecidableEq K]

theorem AMap.set_same (m : AMap K P) (k : K) (v : Option P) : (m.set k v) k = v := by simp [AMap.set]
theorem AMap.set_other (m : AMap K P) {k x : K} (v : Option P) (h : x ≠ k) : (m.set k v) x = m x := by
  simp [AMap.set, h]

/-- An operation on another key does not change a binding. -/
theorem apply_other {key : P → K} {m m' : AMap K P} {o : Op K P} {r : Ret P}
    (h : m.apply key o = (m', r)) {k : K} (hk : o.key key ≠ k) : m' k = m k := by
  cases o with
  | get k' => cases h; rfl
  | insert p => cases h; exact AMap.set_other _ _ (Ne.symm hk)
  | getOrInsert k' f =>
    simp only [AMap.apply] at h
    split at h <;> cases h
    · rfl
    · exact AMap.set_other _ _ (Ne.symm hk)
  | remove k' => cases h; exact AMap.set_other _ _ (Ne.symm hk)

/-- What an operation does to its own key depends on the binding of that key only. -/
theorem apply_own {key : P → K} {m m' : AMap K P} {o : Op K P} {r : Ret P}
    (h : m.apply key o = (m', r)) {n : AMap K P} (hn : n (o.key key) = m (o.key key)) :
    ∃ n', n.apply key o = (n', r) ∧ n' (o.key key) = m' (o.key key) := by
  cases o with
  | get k => cases h; exact ⟨n, by simp only [Op.key] at hn; simp [AMap.apply, hn], hn⟩
  | insert p =>
    cases h
    exact ⟨n.set (key p) (some p), by simp only [Op.key] at hn; simp [AMap.apply, hn], by simp [Op.key, AMap.set_same]⟩
  | getOrInsert k f =>
    simp only [Op.key] at hn ⊢
    simp only [AMap.apply] at h ⊢
    rw [hn]
    cases hm : m k with
    | some e => rw [hm] at h; cases h; exact ⟨n, rfl, hn⟩
    | none => rw [hm] at h; cases h; exact ⟨_, rfl, by simp [AMap.set_same]⟩
  | remove k =>
    cases h
    exact ⟨n.set k none, by simp only [Op.key] at hn; simp [AMap.apply, hn], by simp [Op.key, AMap.set_same]⟩

/-- Locality: the calls on one key form a legal run by themselves, and determine the binding of that key. -/
theorem Legal.project {key : P → K} {m m' : AMap K P} {L : List (SOp K P)} (h : Legal key m L m') (k : K) :
    ∀ n : AMap K P, n k = m k →
      ∃ n', Legal key n (L.filter (fun x => decide (x.op.key key = k))) n' ∧ n' k = m' k := by
  induction h with
  | nil m => intro n hn; exact ⟨n, .nil n, hn⟩
  | @cons m m1 m2 x L h _ ih =>
    intro n hn
    by_cases hk : x.op.key key = k
    · obtain ⟨n1, h1, h2⟩ := apply_own h (n := n) (by rw [hk]; exact hn)
      rw [hk] at h2
      obtain ⟨n', h3, h4⟩ := ih n1 h2
      exact ⟨n', by simp only [List.filter_cons, hk, decide_true, if_true]; exact .cons h1 h3, h4⟩
    · obtain ⟨n', h3, h4⟩ := ih n (by rw [apply_other h hk]; exact hn)
      exact ⟨n', by simpa [List.filter_cons, hk] using h3, h4⟩

/-! ### Conservation of elements -/

/-- Does this call (with this result) put element `p` into the map? -/
def SOp.inserts (p : P) (x : SOp K P) : Prop := x.op = .insert p ∨ x.ret = .eon (.new p)

/-- Does this call hand element `p` back to its caller? (`insert` hands back the previous element, `remove` the
removed one.) -/
def SOp.handsBack (p : P) (x : SOp K P) : Prop :=
  x.ret = .opt (some p) ∧ ((∃ q, x.op = .insert q) ∨ ∃ k, x.op = .remove k)

/-- Elements are stored under their own keys. -/
def AMap.Keyed (key : P → K) (m : AMap K P) : Prop := ∀ k p, m k = some p → key p = k

theorem apply_keyed {key : P → K} {m m' : AMap K P} {o : Op K P} {r : Ret P} (hm : m.Keyed key)
    (hw : o.WF key) (h : m.apply key o = (m', r)) : m'.Keyed key := by
  have set : ∀ k (v : Option P), (∀ p, v = some p → key p = k) → (m.set k v).Keyed key := by
    intro k v hv k' p hp
    by_cases e : k' = k
    · subst e; rw [AMap.set_same] at hp; exact hv p hp
    · rw [AMap.set_other _ _ e] at hp; exact hm k' p hp
  cases o with
  | get k => cases h; exact hm
  | insert p => cases h; exact set _ _ (by intro q hq; cases hq; rfl)
  | getOrInsert k f =>
    simp only [AMap.apply] at h
    split at h <;> cases h
    · exact hm
    · exact set _ _ (by intro q hq; cases hq; exact hw)
  | remove k => cases h; exact set _ _ (by intro q hq; cases hq)

open Classical in
/-- 1 if element `p` is in the map, else 0. -/
noncomputable def AMap.has (key : P → K) (m : AMap K P) (p : P) : Nat := if m (key p) = some p then 1 else 0

open Classical in
/-- Number of calls that put `p` into the map. -/
noncomputable def insertions (p : P) (L : List (SOp K P)) : Nat := L.countP (fun x => decide (x.inserts p))

open Classical in
/-- Number of calls that hand `p` back. -/
noncomputable def handBacks (p : P) (L : List (SOp K P)) : Nat := L.countP (fun x => decide (x.handsBack p))

open Classical in
/-- Conservation: nothing is duplicated and nothing gets lost. -/
theorem Legal.conserve {key : P → K} {m m' : AMap K P} {L : List (SOp K P)} (h : Legal key m L m')
    (hk : m.Keyed key) (hwf : ∀ x ∈ L, x.op.WF key) (p : P) :
    insertions p L + m.has key p = handBacks p L + m'.has key p := by
  induction h with
  | nil m => simp [insertions, handBacks]
  | @cons m m1 m2 x L h _ ih =>
    have hw := hwf x (by simp)
    have ih := ih (apply_keyed hk hw h) (fun y hy => hwf y (by simp [hy]))
    have hstep : (if x.inserts p then 1 else 0) + m.has key p = (if x.handsBack p then 1 else 0) + m1.has key p := by
      obtain ⟨id, o, r⟩ := x
      simp only at h hw
      cases o with
      | get k =>
        cases h
        simp [SOp.inserts, SOp.handsBack]
      | insert q =>
        cases h
        simp only [SOp.inserts, SOp.handsBack, AMap.has, Op.insert.injEq, Ret.opt.injEq, reduceCtorEq, or_false,
          exists_eq', true_or, and_true]
        by_cases e : key p = key q
        · rw [e, AMap.set_same]
          by_cases e2 : q = p
          · subst e2; simp; omega
          · have : ¬ (some q = some p) := by simpa using e2
            simp [e2]
        · rw [AMap.set_other _ _ e]
          have h1 : q ≠ p := by intro e2; subst e2; exact e rfl
          have h2 : ¬ m (key q) = some p := fun h2 => e (hk _ _ h2)
          simp [h1, h2]
      | getOrInsert k f =>
        simp only [AMap.apply] at h
        split at h
        · next e he =>
          cases h
          simp [SOp.inserts, SOp.handsBack]
        · next he =>
          cases h
          simp only [SOp.inserts, SOp.handsBack, AMap.has, reduceCtorEq, false_or, Ret.eon.injEq,
            ExistingOrNew.new.injEq, false_and, if_false, Nat.zero_add]
          by_cases e : key p = k
          · subst e
            rw [AMap.set_same]; simp [he]
          · rw [AMap.set_other _ _ e]
            have : ¬ f k = p := by intro e2; subst e2; exact e hw
            simp [this]
      | remove k =>
        cases h
        simp only [SOp.inserts, SOp.handsBack, AMap.has, reduceCtorEq, or_false, Ret.opt.injEq, if_false,
          exists_eq', or_true, and_true, exists_false, Nat.zero_add, Op.remove.injEq]
        by_cases e : key p = k
        · subst e; rw [AMap.set_same]; simp
        · rw [AMap.set_other _ _ e]
          have h2 : ¬ m k = some p := fun h2 => e (hk _ _ h2)
          simp [h2]
    have e1 : insertions p (x :: L) = (if x.inserts p then 1 else 0) + insertions p L := by
      simp only [insertions, List.countP_cons, decide_eq_true_eq]; omega
    have e2 : handBacks p (x :: L) = (if x.handsBack p then 1 else 0) + handBacks p L := by
      simp only [handBacks, List.countP_cons, decide_eq_true_eq]; omega
    omega

theorem empty_keyed (key : P → K) : (AMap.empty : AMap K P).Keyed key := by
  intro k p h; cases h

/-- Two different members with a property make the count at least two. -/
theorem two_le_countP {α : Type} {q : α → Bool} {l : List α} {x y : α} (hx : x ∈ l) (hy : y ∈ l) (hne : x ≠ y)
    (h1 : q x = true) (h2 : q y = true) : 2 ≤ l.countP q := by
  induction l with
  | nil => cases hx
  | cons z l ih =>
    rw [List.countP_cons]
    rcases List.mem_cons.mp hx with e | hx'
    · subst e
      rcases List.mem_cons.mp hy with e | hy'
      · exact absurd e.symm hne
      · have : 0 < l.countP q := List.countP_pos_iff.mpr ⟨y, hy', h2⟩
        simp only [h1, if_true]; omega
    · rcases List.mem_cons.mp hy with e | hy'
      · subst e
        have : 0 < l.countP q := List.countP_pos_iff.mpr ⟨x, hx', h1⟩
        simp only [h2, if_true]; omega
      · have := ih hx' hy'; omega

/-- At least two implies two different positions. -/
theorem exists_two_of_countP {α β : Type} {q : α → Bool} {l : List α} (f : α → β) (hn : (l.map f).Nodup)
    (h : 2 ≤ l.countP q) : ∃ x ∈ l, ∃ y ∈ l, q x = true ∧ q y = true ∧ f x ≠ f y := by
  induction l with
  | nil => simp at h
  | cons z l ih =>
    rw [List.countP_cons] at h
    rw [List.map_cons, List.nodup_cons] at hn
    by_cases hz : q z = true
    · simp only [hz, if_true] at h
      obtain ⟨y, hy, hq⟩ := List.countP_pos_iff.mp (by omega : 0 < l.countP q)
      refine ⟨z, by simp, y, by simp [hy], hz, hq, ?_⟩
      intro e
      exact hn.1 (by rw [e]; exact List.mem_map_of_mem hy)
    · simp only [hz] at h
      obtain ⟨x, h1, y, h2, h3⟩ := ih hn.2 (by simpa using h)
      exact ⟨x, by simp [h1], y, by simp [h2], h3⟩

end Contrie
