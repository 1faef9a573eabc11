import Verif.Proof.Local
/-
Locality with looks: a sequence of calls into which looks at single keys (virtual calls of `get`) are woven, rearranged to real time. Nothing here refers to tries, nodes, threads or memory.
-/
set_option linter.unusedSectionVars false
namespace Contrie
open scoped List
variable {K P : Type} [DecidableEq K]

theorem exists_min_stop {α : Type} (f : α → Nat) : ∀ l : List α, l ≠ [] → ∃ a ∈ l, ∀ b ∈ l, f a ≤ f b
  | [], h => absurd rfl h
  | [a], _ => ⟨a, by simp, by simp⟩
  | a :: b :: l, _ => by
    obtain ⟨c, hc, h⟩ := exists_min_stop f (b :: l) (by simp)
    by_cases hac : f a ≤ f c
    · refine ⟨a, by simp, ?_⟩
      intro d hd
      rcases List.mem_cons.mp hd with rfl | hd
      · exact Nat.le_refl _
      · exact Nat.le_trans hac (h d hd)
    · refine ⟨c, by simp [hc], ?_⟩
      intro d hd
      rcases List.mem_cons.mp hd with rfl | hd
      · omega
      · exact h d hd

/-- A call, `true`, or a look, `false`. -/
abbrev WItem (K P : Type) := SOp K P × Bool

def WItem.key (key : P → K) (x : WItem K P) : K := x.1.op.key key

/-- Locality; cf. `localOrder`. `stop`: when a call ends; it begins at the instant that is its number. -/
theorem itemOrder {key : P → K} {stop : Nat → Nat} (hlt : ∀ id, id ≤ stop id) : ∀ (n : Nat) (L : List (WItem K P)), L.length = n →
    L.Pairwise (fun x y => x.key key = y.key key → ¬ stop y.1.id < x.1.id) →
    ∃ L' : List (WItem K P), L'.Perm L ∧ L'.Pairwise (fun x y => ¬ stop y.1.id < x.1.id) ∧ ∀ m m', Legal key m (L.map Prod.fst) m' → Legal key m (L'.map Prod.fst) m'
  | 0, [], _, _ => ⟨[], .refl _, .nil, fun _ _ h => h⟩
  | n + 1, L, hn, hp => by
    have hmin : ∃ L1 x L2, L = L1 ++ x :: L2 ∧ (∀ y ∈ L1, y.key key ≠ x.key key) ∧ ∀ z ∈ L, ¬ stop z.1.id < x.1.id := by
      obtain ⟨a, ha, hmin⟩ := exists_min_stop (fun x : WItem K P => stop x.1.id) L (by rintro rfl; cases hn)
      rcases first_split (fun y => y.key key = a.key key) L with hno' | ⟨L1, x, L2, hL, hx, hno'⟩
      · exact absurd rfl (hno' a ha)
      · refine ⟨L1, x, L2, hL, fun y hy e => hno' y hy (e.trans hx), ?_⟩
        intro z hz hlt'
        have hz := hmin z hz
        have hb : stop a.1.id < x.1.id := by omega
        rw [hL] at ha
        rcases List.mem_append.mp ha with ha | ha
        · exact hno' a ha rfl
        · rcases List.mem_cons.mp ha with rfl | ha
          · have := hlt a.1.id; omega
          · rw [hL] at hp
            have := (List.pairwise_append.mp hp).2.1
            exact (List.pairwise_cons.mp this).1 a ha hx hb
    obtain ⟨L1, x, L2, rfl, hk, hb⟩ := hmin
    have hsub : L1 ++ L2 <+ L1 ++ x :: L2 := List.Sublist.append (List.Sublist.refl _) (List.sublist_cons_self _ _)
    obtain ⟨L', h1, h2, h3⟩ := itemOrder hlt n (L1 ++ L2) (by simp at hn ⊢; omega) (hp.sublist hsub)
    refine ⟨x :: L', ?_, ?_, ?_⟩
    · exact (List.Perm.cons x h1).trans List.perm_middle.symm
    · refine List.pairwise_cons.mpr ⟨?_, h2⟩
      intro y hy
      exact hb y (hsub.subset (h1.subset hy))
    · intro m m' hl
      rw [List.map_append, List.map_cons] at hl
      have hl' := hl.toFront (fun y hy => by
        obtain ⟨z, hz, rfl⟩ := List.mem_map.mp hy
        exact hk z hz)
      rw [← List.map_append] at hl'
      cases hl' with
      | cons e hl' => exact .cons e (h3 _ _ hl')

/-- The looks `V i` before the `i`-th call. -/
def weave (V : Nat → List (WItem K P)) : Nat → List (SOp K P) → List (WItem K P)
  | i, [] => V i
  | i, x :: L => V i ++ (x, true) :: weave V (i + 1) L

def IsLook (m : AMap K P) (x : WItem K P) : Prop := x.2 = false ∧ ∃ k, x.1.op = .get k ∧ x.1.ret = .opt (m k)

theorem legal_looks {key : P → K} {m m' : AMap K P} {L : List (SOp K P)} : ∀ {V : List (WItem K P)}, (∀ x ∈ V, IsLook m x) → Legal key m L m' →
    Legal key m (V.map Prod.fst ++ L) m'
  | [], _, h => h
  | x :: V, hv, h => by
    obtain ⟨-, k, e1, e2⟩ := hv x (by simp)
    refine .cons (m1 := m) ?_ (legal_looks (fun y hy => hv y (by simp [hy])) h)
    rw [e1, e2]; rfl

theorem weave_legal {key : P → K} {V : Nat → List (WItem K P)} {m' : AMap K P} : ∀ {L : List (SOp K P)} {i : Nat} {m : AMap K P}, Legal key m L m' →
    (∀ j mj, Legal key m (L.take j) mj → j ≤ L.length → ∀ x ∈ V (i + j), IsLook mj x) → Legal key m ((weave V i L).map Prod.fst) m'
  | [], i, m, h, hv => by
    have := legal_looks (L := []) (hv 0 m (.nil m) (by simp)) h
    simpa [weave] using this
  | x :: L, i, m, h, hv => by
    simp only [weave, List.map_append, List.map_cons]
    refine legal_looks (hv 0 m (.nil m) (by simp)) ?_
    cases h with
    | cons e h =>
      refine .cons e (weave_legal h ?_)
      intro j mj hj hlen y hy
      refine hv (j + 1) mj ?_ (by simpa using hlen) y (by rwa [show i + (j + 1) = i + 1 + j by omega])
      rw [List.take_succ_cons]
      exact .cons e hj

theorem mem_weave {V : Nat → List (WItem K P)} {x : WItem K P} : ∀ {L : List (SOp K P)} {i j : Nat}, j ≤ L.length → x ∈ V (i + j) → x ∈ weave V i L
  | [], i, j, hj, hx => by
    have : j = 0 := by simpa using hj
    subst this
    exact hx
  | y :: L, i, 0, _, hx => by simp only [weave]; exact List.mem_append_left _ hx
  | y :: L, i, j + 1, hj, hx => by
    simp only [weave]
    exact List.mem_append_right _ (List.mem_cons_of_mem _ (mem_weave (j := j) (by simpa using hj) (by rwa [show i + 1 + j = i + (j + 1) by omega])))

theorem weave_real {V : Nat → List (WItem K P)} (hV : ∀ j, ∀ x ∈ V j, x.2 = false) : ∀ {L : List (SOp K P)} {i : Nat}, (weave V i L).filter Prod.snd = L.map (fun x => (x, true))
  | [], i => by
    simp only [weave, List.map_nil, List.filter_eq_nil_iff]
    intro x hx; simp [hV i x hx]
  | y :: L, i => by
    have : (V i).filter Prod.snd = [] := by
      simp only [List.filter_eq_nil_iff]
      intro x hx; simp [hV i x hx]
    simp only [weave, List.filter_append, this, List.nil_append, List.map_cons]
    rw [List.filter_cons_of_pos rfl, weave_real hV]

theorem of_mem_weave {V : Nat → List (WItem K P)} {x : WItem K P} : ∀ {L : List (SOp K P)} {i : Nat}, x ∈ weave V i L → (∃ j, j ≤ L.length ∧ x ∈ V (i + j)) ∨ ∃ y ∈ L, x = (y, true)
  | [], i, h => .inl ⟨0, by simp, h⟩
  | y :: L, i, h => by
    simp only [weave] at h
    rcases List.mem_append.mp h with h | h
    · exact .inl ⟨0, by simp, h⟩
    · rcases List.mem_cons.mp h with rfl | h
      · exact .inr ⟨y, by simp, rfl⟩
      · rcases of_mem_weave h with ⟨j, h1, h2⟩ | ⟨z, h1, h2⟩
        · exact .inl ⟨j + 1, by simpa using h1, by rwa [show i + (j + 1) = i + 1 + j by omega]⟩
        · exact .inr ⟨z, by simp [h1], h2⟩

theorem weave_pairwise {V : Nat → List (WItem K P)} {R : WItem K P → WItem K P → Prop} : ∀ {L : List (SOp K P)} {i : Nat},
    L.Pairwise (fun x y => R (x, true) (y, true)) → (∀ j, (V j).Pairwise R) → (∀ j j', j < j' → ∀ v ∈ V j, ∀ w ∈ V j', R v w) →
    (∀ j, ∀ v ∈ V (i + j), ∀ x ∈ L.drop j, R v (x, true)) → (∀ j, ∀ v ∈ V (i + j), ∀ x ∈ L.take j, R (x, true) v) → (weave V i L).Pairwise R
  | [], i, _, h2, _, _, _ => h2 i
  | y :: L, i, h1, h2, h3, h4, h5 => by
    simp only [weave]
    have hy := List.pairwise_cons.mp h1
    have ih : (weave V (i + 1) L).Pairwise R := weave_pairwise hy.2 h2 h3
      (fun j v hv x hx => h4 (j + 1) v (by rwa [show i + (j + 1) = i + 1 + j by omega]) x (by simpa using hx))
      (fun j v hv x hx => h5 (j + 1) v (by rwa [show i + (j + 1) = i + 1 + j by omega]) x (by rw [List.take_succ_cons]; exact List.mem_cons_of_mem _ hx))
    refine List.pairwise_append.mpr ⟨h2 i, List.pairwise_cons.mpr ⟨?_, ih⟩, ?_⟩
    · intro w hw
      rcases of_mem_weave hw with ⟨j, g1, g2⟩ | ⟨z, g1, rfl⟩
      · exact h5 (j + 1) w (by rwa [show i + (j + 1) = i + 1 + j by omega]) y (by simp)
      · exact hy.1 z g1
    · intro v hv w hw
      rcases List.mem_cons.mp hw with rfl | hw
      · exact h4 0 v hv y (by simp)
      · rcases of_mem_weave hw with ⟨j, g1, g2⟩ | ⟨z, g1, rfl⟩
        · exact h3 i (i + 1 + j) (by omega) v hv w g2
        · exact h4 0 v hv z (by simp [g1])

/-- Leaving the looks out. -/
theorem Legal.real {key : P → K} {m' : AMap K P} : ∀ {l : List (WItem K P)} {m : AMap K P}, (∀ x ∈ l, x.2 = false → ∃ k, x.1.op = .get k) → Legal key m (l.map Prod.fst) m' →
    Legal key m ((l.filter Prod.snd).map Prod.fst) m'
  | [], _, _, h => h
  | (x, b) :: l, m, hv, h => by
    cases h with
    | cons e h =>
      have ih := Legal.real (fun y hy => hv y (by simp [hy])) h
      cases b with
      | true => rw [List.filter_cons_of_pos rfl]; exact .cons e ih
      | false =>
        rw [List.filter_cons_of_neg (by simp)]
        obtain ⟨k, hk⟩ := hv (x, false) (by simp) rfl
        simp only at hk
        rw [hk] at e
        have : m = _ := (Prod.ext_iff.mp e).1
        subst this
        exact ih

end Contrie
