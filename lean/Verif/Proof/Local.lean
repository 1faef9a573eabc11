import Verif.Spec.Causal
/-
Herlihy and Wing's locality, for maps: legal runs that respect real time key by key can be rearranged so that they respect
real time altogether. Nothing here refers to tries, nodes, threads or memory.
-/
set_option linter.unusedSectionVars false
namespace Contrie
open scoped List
variable {K P : Type} [DecidableEq K]

/-- Operations on different keys do not influence each other's results. -/
theorem apply_ret_congr {key : P → K} {m m' : AMap K P} {o : Op K P} (h : m (o.key key) = m' (o.key key)) :
    (m.apply key o).2 = (m'.apply key o).2 := by
  cases o with
  | get k => simp only [AMap.apply]; rw [show m k = m' k from h]
  | insert p => simp only [AMap.apply]; rw [show m (key p) = m' (key p) from h]
  | remove k => simp only [AMap.apply]; rw [show m k = m' k from h]
  | getOrInsert k f =>
    have h : m k = m' k := h
    simp only [AMap.apply, h]
    split <;> rfl

theorem apply_self_congr {key : P → K} {m m' : AMap K P} {o : Op K P} (h : m (o.key key) = m' (o.key key)) :
    (m.apply key o).1 (o.key key) = (m'.apply key o).1 (o.key key) := by
  cases o with
  | get k => exact h
  | insert p => simp [AMap.apply, AMap.set, Op.key]
  | remove k => simp [AMap.apply, AMap.set, Op.key]
  | getOrInsert k f =>
    have h : m k = m' k := h
    simp only [AMap.apply, Op.key, h]
    split
    · exact h
    · simp [AMap.set]

theorem apply_off {key : P → K} {m : AMap K P} {o : Op K P} {k : K} (h : o.key key ≠ k) : (m.apply key o).1 k = m k := by
  have h' : k ≠ o.key key := fun e => h e.symm
  cases o with
  | get k' => rfl
  | insert p => simp only [AMap.apply, AMap.set]; exact if_neg h'
  | getOrInsert k' f =>
    simp only [AMap.apply]
    split
    · rfl
    · simp only [AMap.set]; exact if_neg h'
  | remove k' => simp only [AMap.apply, AMap.set]; exact if_neg h'

/-- Two neighbouring calls on different keys can be exchanged. -/
theorem Legal.swap {key : P → K} {m m' : AMap K P} {x y : SOp K P} {L : List (SOp K P)} (hk : x.op.key key ≠ y.op.key key)
    (h : Legal key m (x :: y :: L) m') : Legal key m (y :: x :: L) m' := by
  cases h with
  | @cons _ m1 _ _ _ e1 h =>
    cases h with
    | @cons _ m2 _ _ _ e2 h =>
      have e1a : (m.apply key x.op).1 = m1 := by rw [e1]
      have e1b : (m.apply key x.op).2 = x.ret := by rw [e1]
      have e2a : (m1.apply key y.op).1 = m2 := by rw [e2]
      have e2b : (m1.apply key y.op).2 = y.ret := by rw [e2]
      have hy : m (y.op.key key) = m1 (y.op.key key) := by rw [← e1a, apply_off hk]
      have hx : (m.apply key y.op).1 (x.op.key key) = m (x.op.key key) := apply_off (fun e => hk e.symm)
      refine .cons (m1 := (m.apply key y.op).1) ?_ (.cons (m1 := m2) ?_ h)
      · exact Prod.ext rfl ((apply_ret_congr hy).trans e2b)
      · refine Prod.ext ?_ ((apply_ret_congr hx).trans e1b)
        funext k
        by_cases h1 : x.op.key key = k
        · subst h1
          rw [apply_self_congr hx, e1a, ← e2a, apply_off (fun e => hk e.symm)]
        · rw [apply_off h1]
          by_cases h2 : y.op.key key = k
          · subst h2
            rw [apply_self_congr hy, e2a]
          · rw [apply_off h2, ← e2a, apply_off h2, ← e1a, apply_off h1]

/-- A call can be moved before calls on other keys. -/
theorem Legal.toFront {key : P → K} {x : SOp K P} {L2 : List (SOp K P)} {m' : AMap K P} : ∀ {L1 : List (SOp K P)} {m : AMap K P},
    (∀ y ∈ L1, y.op.key key ≠ x.op.key key) → Legal key m (L1 ++ x :: L2) m' → Legal key m (x :: (L1 ++ L2)) m'
  | [], _, _, h => h
  | y :: L1, m, hk, h => by
    cases h with
    | cons e h => exact Legal.swap (hk y (by simp)) (.cons e (Legal.toFront (fun z hz => hk z (by simp [hz])) h))

/-- The first element with a property. -/
theorem first_split {α : Type} (p : α → Prop) : ∀ l : List α, (∀ x ∈ l, ¬ p x) ∨ ∃ l1 x l2, l = l1 ++ x :: l2 ∧ p x ∧ ∀ y ∈ l1, ¬ p y
  | [] => .inl (by simp)
  | a :: l => by
    by_cases ha : p a
    · exact .inr ⟨[], a, l, rfl, ha, by simp⟩
    · rcases first_split p l with h | ⟨l1, x, l2, rfl, h1, h2⟩
      · exact .inl (by intro x hx; exact (List.mem_cons.mp hx).elim (fun e => e ▸ ha) (h x))
      · refine .inr ⟨a :: l1, x, l2, rfl, h1, ?_⟩
        intro y hy
        rcases List.mem_cons.mp hy with rfl | hy
        · exact ha
        · exact h2 y hy

theorem sublist_tail {α : Type} {a b c : α} {l : List α} (h : [a, b] <+ c :: l) : b ∈ l := by
  cases h with
  | cons _ h => exact h.subset (by simp)
  | cons_cons _ h => exact h.subset (by simp)

theorem sublist_skip {α : Type} {a b : α} {l1 l2 : List α} (ha : a ∉ l1) (h : [a, b] <+ l1 ++ l2) : [a, b] <+ l2 := by
  induction l1 with
  | nil => exact h
  | cons c l1 ih =>
    cases h with
    | cons _ h => exact ih (fun h' => ha (by simp [h'])) h
    | cons_cons _ _ => exact absurd (by simp) ha

/-- In a well-formed history no call returns before it is invoked. -/
theorem WellFormed.irrefl {h : List (HEv K P)} (wf : WellFormed h) {a : Nat} : ¬ Before h a a := by
  rintro ⟨r, o, hs⟩
  obtain ⟨o', hs'⟩ := wf.resAfter a r (hs.subset (by simp))
  -- split at the return
  rcases first_split (fun e => e = HEv.res a r) h with hno | ⟨h1, e, h2, rfl, rfl, hno⟩
  · exact hno _ (hs.subset (by simp)) rfl
  · have h1' : HEv.inv a o ∈ h2 := sublist_tail (sublist_skip (fun hm => hno _ hm rfl) hs)
    have hres : ∀ r', HEv.res a r' ∉ h2 := by
      intro r' hm
      have := (List.pairwise_append.mp wf.resOnce).2.1
      exact (List.pairwise_cons.mp this).1 _ hm a r r' rfl rfl
    have h2' : HEv.inv a o' ∈ h1 := by
      have : [HEv.inv a o', HEv.res a r] <+ (h1 ++ [HEv.res a r]) ++ h2 := by simpa using hs'
      apply Classical.byContradiction
      intro hn
      have hne : HEv.inv a o' ∉ h1 ++ [HEv.res a r] := by simp [hn]
      exact hres r ((sublist_skip hne this).subset (by simp))
    exact (List.pairwise_append.mp wf.invOnce).2.2 _ h2' _ (by simp [h1']) a o' o rfl rfl

/-- Locality. -/
theorem localOrder {key : P → K} {h : List (HEv K P)} (wf : WellFormed h) : ∀ (n : Nat) (L : List (SOp K P)), L.length = n →
    L.Pairwise (fun x y => x.op.key key = y.op.key key → ¬ Before h y.id x.id) →
    ∃ L', L'.Perm L ∧ L'.Pairwise (fun x y => ¬ Before h y.id x.id) ∧ ∀ m m', Legal key m L m' → Legal key m L' m'
  | 0, [], _, _ => ⟨[], .refl _, .nil, fun _ _ h => h⟩
  | n + 1, L, hn, hp => by
    -- a call that can come first
    have hmin : ∃ L1 x L2, L = L1 ++ x :: L2 ∧ (∀ y ∈ L1, y.op.key key ≠ x.op.key key) ∧ ∀ z ∈ L, ¬ Before h z.id x.id := by
      rcases first_split (fun e => ∃ z ∈ L, ∃ r, e = HEv.res z.id r) h with hno | ⟨h1, e, h2, hh, ⟨a, ha, r, rfl⟩, hno⟩
      · cases L with
        | nil => cases hn
        | cons x L =>
          refine ⟨[], x, L, rfl, by simp, ?_⟩
          rintro z hz ⟨r, o, hs⟩
          exact hno _ (hs.subset (by simp)) ⟨z, hz, r, rfl⟩
      · rcases first_split (fun y => y.op.key key = a.op.key key) L with hno' | ⟨L1, x, L2, hL, hx, hno'⟩
        · exact absurd rfl (hno' a ha)
        · refine ⟨L1, x, L2, hL, fun y hy e => hno' y hy (e.trans hx), ?_⟩
          rintro z hz ⟨r', o, hs⟩
          have hb : Before h a.id x.id := by
            rw [hh] at hs ⊢
            have h3 := sublist_skip (fun hm => hno _ hm ⟨z, hz, r', rfl⟩) hs
            have h4 := sublist_tail h3
            refine ⟨r, o, List.Sublist.trans ?_ (List.sublist_append_right _ _)⟩
            exact List.Sublist.cons_cons _ (List.singleton_sublist.mpr h4)
          rw [hL] at ha
          rcases List.mem_append.mp ha with ha | ha
          · exact hno' a ha rfl
          · rcases List.mem_cons.mp ha with rfl | ha
            · exact wf.irrefl hb
            · rw [hL] at hp
              have := (List.pairwise_append.mp hp).2.1
              exact (List.pairwise_cons.mp this).1 a ha hx hb
    obtain ⟨L1, x, L2, rfl, hk, hb⟩ := hmin
    have hsub : L1 ++ L2 <+ L1 ++ x :: L2 := List.Sublist.append (List.Sublist.refl _) (List.sublist_cons_self _ _)
    obtain ⟨L', h1, h2, h3⟩ := localOrder wf n (L1 ++ L2) (by simp at hn ⊢; omega) (hp.sublist hsub)
    refine ⟨x :: L', ?_, ?_, ?_⟩
    · exact (List.Perm.cons x h1).trans List.perm_middle.symm
    · refine List.pairwise_cons.mpr ⟨?_, h2⟩
      intro y hy
      exact hb y (hsub.subset (h1.subset hy))
    · intro m m' hl
      cases hl.toFront hk with
      | cons e hl => exact .cons e (h3 _ _ hl)

/-- **Locality.** If any two calls about one key that do not overlap are ordered by `hb`, a causal linearization can be rearranged to a
linearization. -/
theorem IsCausalLinearization.linearizable {key : P → K} {h : List (HEv K P)} {hb : Nat → Nat → Prop} {L : List (SOp K P)}
    {final : AMap K P} (wf : WellFormed h) (H : IsCausalLinearization key h hb L final)
    (hs : ∀ x y o o', HEv.inv x o ∈ h → HEv.inv y o' ∈ h → o.key key = o'.key key → Before h x y → hb x y) :
    ∃ L', L'.Perm L ∧ IsLinearization key h L' final := by
  obtain ⟨L', h1, h2, h3⟩ := localOrder (key := key) wf L.length L rfl (by
    refine H.causal.imp_of_mem ?_
    intro x y hx hy hc hk hbf
    exact hc hk (hs y.id x.id y.op x.op (H.invoked y hy) (H.invoked x hx) hk.symm hbf))
  refine ⟨L', h1, ?_⟩
  exact {
    invoked := fun x hx => H.invoked x (h1.subset hx)
    once := (h1.map SOp.id).nodup_iff.mpr H.once
    complete := fun id o r hi hr => h1.symm.subset (H.complete id o r hi hr)
    realtime := h2
    legal := h3 _ _ H.legal }

end Contrie
