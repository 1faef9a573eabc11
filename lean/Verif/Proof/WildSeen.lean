import Verif.Proof.WildCmp
/-
Nodes seen alive, with misbehaving user code. A data node may be anywhere in the trie: a split moves it one level down (wherever the hash it is
given at that moment leads), a prune may move it one level up.
-/
set_option linter.unusedSectionVars false
namespace Contrie
variable {K P : Type} {M : Nat → Mem P} {n : Nat}
open scoped List

theorem NodeAt.above {m : Mem P} (h : HMemInv m) {p q : List (Fin 16)} {a : Nat} (ha : NodeAt m (q ++ p) a) : ∃ b, NodeAt m q b := by
  obtain ⟨k, hk⟩ : ∃ k, p.length = k := ⟨_, rfl⟩
  induction k generalizing p a with
  | zero =>
    obtain rfl := List.eq_nil_of_length_eq_zero hk
    exact ⟨a, by simpa using ha⟩
  | succ k ih =>
    rcases List.eq_nil_or_concat p with rfl | ⟨p', i, rfl⟩
    · exact ⟨a, by simpa using ha⟩
    · rw [List.concat_eq_append, ← List.append_assoc] at ha
      obtain ⟨b, hb⟩ := ha.hup h
      exact ih hb (by simpa using hk)

/-- A location of path `p` reached by a session which knew `V0` before; and the way there is not older than what was known. -/
structure WReached (M : Nat → Mem P) (n : Nat) (V0 V : Loc → Nat) (p : List (Fin 16)) (ℓ : Loc) : Prop extends Reached M n V0 V p ℓ where
  pre : ∀ q i r, p = q ++ i :: r → ∀ τ0, Trail M V0 [] q .root τ0 → ∃ a j p' z, ℓ = .slot a j ∧ p = p' ++ [j] ∧ z ≤ n ∧
    NodeAt (M z) p' a ∧ ∀ x, z ≤ x → x ≤ τ0 → ∃ b, NodeAt (M x) q b

theorem WReached.mono {V0 V V' : Loc → Nat} (h : ∀ ℓ, V ℓ ≤ V' ℓ) {n' : Nat} (hn : n ≤ n') {p : List (Fin 16)} {ℓ : Loc}
    (hr : WReached M n V0 V p ℓ) : WReached M n' V0 V' p ℓ where
  toReached := hr.toReached.mono h hn
  pre := by
    intro q i r e τ0 ht
    obtain ⟨a, j, p', z, h1, h2, h3, h4⟩ := hr.pre q i r e τ0 ht
    exact ⟨a, j, p', z, h1, h2, by omega, h4⟩

theorem WReached.root {V0 V : Loc → Nat} (h : ∀ ℓ, V0 ℓ ≤ V ℓ) : WReached M n V0 V [] .root where
  toReached := Reached.root h
  pre := by intro q i r e; simp at e

/-- What a session learns from the load of a location it has reached. -/
structure WLearnt (M : Nat → Mem P) (n : Nat) (V0 V' : Loc → Nat) (p : List (Fin 16)) (ℓ : Loc) (w : Word) (τ σ : Nat) : Prop extends
    Learnt M n V0 V' p ℓ w τ σ where
  pre : ∀ q i r, p = q ++ i :: r → ∀ τ0, Trail M V0 [] q .root τ0 → ∀ x, σ ≤ x → x ≤ τ0 → ∃ b, NodeAt (M x) q b
  wdown : ∀ a i, w.ptr = some a → w.data = false → WReached M n V0 V' (p ++ [i]) (.slot a i)

theorem WReached.read (H : HHist M n) {V0 V V' : Loc → Nat} (hV : ∀ ℓ, V ℓ ≤ n) {p : List (Fin 16)} {ℓ : Loc}
    (hr : WReached M n V0 V p ℓ) (hVV : ∀ ℓ, V ℓ ≤ V' ℓ) {τ : Nat} {w : Word} (hVτ : V ℓ ≤ τ) (hτ : τ ≤ n)
    (hV' : τ ≤ V' ℓ) (hat : (M τ).At ℓ p w) : ∃ σ, WLearnt M n V0 V' p ℓ w τ σ := by
  obtain ⟨σ, hl⟩ := hr.toReached.hread H hV hVV hVτ hτ hV' hat
  have hσn : σ ≤ n := by have := hl.le; omega
  have hpre : ∀ q i r, p = q ++ i :: r → ∀ τ0, Trail M V0 [] q .root τ0 → ∀ x, σ ≤ x → x ≤ τ0 → ∃ b, NodeAt (M x) q b := by
    intro q i r e τ0 ht x hx1 hx2
    obtain ⟨a, j, p', z, h1, h2, h3, h4, h5⟩ := hr.pre q i r e τ0 ht
    by_cases hz : z ≤ x
    · exact h5 x hz hx2
    · have hlive := hl.live
      subst h1
      obtain ⟨p2, e2, hn2⟩ := hlive.node
      rw [h2] at e2
      have e3 := List.append_inj_left' e2 rfl
      subst e3
      have hb := H.node_between hn2 h4 hx1 (by omega) h3
      -- `p'` goes on where `q` ends
      have : ∃ s, p' = q ++ s := by
        rw [h2] at e
        rcases List.eq_nil_or_concat r with rfl | ⟨r', y, rfl⟩
        · refine ⟨[], ?_⟩
          have := List.append_inj_left' e rfl
          simpa using this
        · refine ⟨i :: r', ?_⟩
          rw [List.concat_eq_append, ← List.cons_append, ← List.append_assoc] at e
          exact List.append_inj_left' e rfl
      obtain ⟨s, rfl⟩ := this
      exact hb.above (H.inv x (by omega))
  refine ⟨σ, hl, hpre, ?_⟩
  intro a i hp hd
  refine ⟨hl.down a i hp hd, ?_⟩
  intro q j r e τ0 ht
  have hnode := hl.live.hinner (H.inv σ hσn) hp hd
  refine ⟨a, i, p, σ, rfl, rfl, hσn, hnode, ?_⟩
  intro x hx1 hx2
  rcases List.eq_nil_or_concat r with rfl | ⟨r', y, rfl⟩
  · have e1 : p = q := List.append_inj_left' e rfl
    subst e1
    have := hl.fresh [] τ0 (Or.inl rfl) (by simpa using ht)
    obtain rfl : x = σ := by omega
    exact ⟨a, hnode⟩
  · rw [List.concat_eq_append, ← List.cons_append, ← List.append_assoc] at e
    exact hpre q j r' (List.append_inj_left' e rfl) τ0 ht x hx1 hx2

/-- Node `a` was in use, at some place, at an instant not before what was known; nor was the way there. -/
def WSeen (M : Nat → Mem P) (n : Nat) (V0 : Loc → Nat) (a : Nat) : Prop :=
  ∃ σ q w, σ ≤ n ∧ (M σ).follow (M σ).root q = some w ∧ w.ptr = some a ∧
    (∀ ns τ0, ns = [] ∨ w.isLeaf → Trail M V0 [] (q ++ ns) .root τ0 → τ0 ≤ σ) ∧
    (∀ q' i r, q = q' ++ i :: r → ∀ τ0, Trail M V0 [] q' .root τ0 → ∀ x, σ ≤ x → x ≤ τ0 → ∃ b, NodeAt (M x) q' b)

theorem WSeen.mono {V0 : Loc → Nat} {a n' : Nat} (h : WSeen M n V0 a) (hn : n ≤ n') : WSeen M n' V0 a := by
  obtain ⟨σ, q, w, h1, h2⟩ := h
  exact ⟨σ, q, w, by omega, h2⟩

theorem WSeen.anti {V0 V : Loc → Nat} (h : ∀ ℓ, V0 ℓ ≤ V ℓ) {a : Nat} (hs : WSeen M n V a) : WSeen M n V0 a := by
  obtain ⟨σ, q, w, h1, h2, h3, h4, h5⟩ := hs
  exact ⟨σ, q, w, h1, h2, h3, fun ns τ0 hns ht => h4 ns τ0 hns (ht.mono h), fun q' i r e τ0 ht => h5 q' i r e τ0 (ht.mono h)⟩

/-- A node found in a location that was reached. -/
theorem WLearnt.seen (H : HHist M n) {V0 V' : Loc → Nat} {p : List (Fin 16)} {ℓ : Loc} {w : Word} {τ σ : Nat}
    (hl : WLearnt M n V0 V' p ℓ w τ σ) (hτ : τ ≤ n) {a : Nat} (hp : w.ptr = some a) : WSeen M n V0 a := by
  have hσ : σ ≤ n := by have := hl.le; omega
  refine ⟨σ, p, w.erase, hσ, hl.live.hfollow (H.inv σ hσ), by simpa using hp, ?_, hl.pre⟩
  intro ns τ0 hns ht
  refine hl.fresh ns τ0 ?_ ht
  rcases hns with h | h | h
  · exact Or.inl h
  · exact Or.inr (Or.inl (by simpa using h))
  · exact Or.inr (Or.inr (by simpa using h))

/-- A node linked after everything that was known. -/
theorem WSeen.new {V0 : Loc → Nat} (hV : ∀ ℓ, V0 ℓ ≤ n) {a : Nat} (hl : ∃ q, LinkedAt (M (n + 1)) q a) : WSeen M (n + 1) V0 a := by
  obtain ⟨q, w, h1, h2⟩ := hl
  refine ⟨n + 1, q, w, Nat.le_refl _, h1, h2, ?_, ?_⟩
  · intro ns τ0 _ ht
    have := ht.le hV; omega
  · intro q' i r _ τ0 ht x hx1 hx2
    have := ht.le hV; omega

/-- The beginning of a trail. -/
theorem Trail.start (H : HHist M n) {V : Loc → Nat} (hV : ∀ ℓ, V ℓ ≤ n) : ∀ (qs : List (Fin 16)) {p0 ms : List (Fin 16)} {ℓ : Loc} {τ0 : Nat},
    Trail M V p0 (qs ++ ms) ℓ τ0 → ∀ {x : Nat}, x < τ0 → (∀ b, ¬ NodeAt (M x) (p0 ++ qs) b) → ∃ τ', Trail M V p0 qs ℓ τ' ∧ x ≤ τ' := by
  intro qs
  induction qs with
  | nil =>
    intro p0 ms ℓ τ0 ht x hx hno
    have hτn := ht.le hV
    cases ht with
    | stop _ _ _ w hσ hl => exact ⟨τ0, .stop _ _ _ w hσ hl, by omega⟩
    | leaf _ _ _ _ w hσ hl hw => exact ⟨τ0, .stop _ _ _ w hσ hl, by omega⟩
    | inner _ i ns _ σ1 w a τ0 hσ hl hp hd ht' =>
      refine ⟨σ1, .stop _ _ _ w hσ hl, ?_⟩
      apply Classical.byContradiction
      intro hlt
      have := ht'.hunder H hV rfl rfl (hl.hinner (H.inv σ1 (by omega)) hp hd) (by omega : σ1 ≤ x) (by omega) (by simpa using hno)
      omega
  | cons i qs ih =>
    intro p0 ms ℓ τ0 ht x hx hno
    cases ht with
    | leaf _ _ _ _ w hσ hl hw => exact ⟨τ0, .leaf _ _ _ _ w hσ hl hw, by omega⟩
    | inner _ _ _ _ σ1 w a τ0 hσ hl hp hd ht' =>
      obtain ⟨τ', h1, h2⟩ := ih ht' hx (by simpa using hno)
      exact ⟨τ', .inner _ _ _ _ σ1 w a τ' hσ hl hp hd h1, h2⟩

/-- Where two paths part. -/
theorem part : ∀ (q p : List (Fin 16)), q <+: p ∨ ∃ q' i r, q = q' ++ i :: r ∧ q' <+: p ∧ ¬ q' ++ [i] <+: p
  | [], p => Or.inl (List.nil_prefix)
  | i :: q, [] => Or.inr ⟨[], i, q, rfl, List.nil_prefix, by simp⟩
  | i :: q, j :: p => by
    by_cases e : i = j
    · subst e
      rcases part q p with h | ⟨q', k, r, h1, h2, h3⟩
      · exact Or.inl (by simpa using h)
      · refine Or.inr ⟨i :: q', k, r, by simp [h1], by simpa using h2, by simpa using h3⟩
    · exact Or.inr ⟨[], i, q, rfl, List.nil_prefix, by simp [e]⟩

theorem HHist.mem_ne (H : HHist M n) {x y : Nat} (hxy : x ≤ y) (hy : y ≤ n) {a : Nat} (h : (M x).mem a ≠ none) : (M y).mem a ≠ none := by
  cases hm : (M x).mem a with
  | none => exact absurd hm h
  | some nd =>
    cases nd with
    | data l => rw [H.data hxy hy hm]; simp
    | inner c p => obtain ⟨c', h1, -⟩ := H.inner hxy hy hm; rw [h1]; simp

theorem LinkedAt.mem {m : Mem P} (h : HMemInv m) {q : List (Fin 16)} {a : Nat} (hl : LinkedAt m q a) : m.mem a ≠ none := by
  obtain ⟨w, h1, h2⟩ := hl
  have hok := h.path_ok h1
  cases hd : w.data with
  | true => obtain ⟨l, h3, -⟩ := hok.of_data h2 hd; rw [h3]; simp
  | false => obtain ⟨l, h3⟩ := hok.of_inner h2 hd; rw [h3]; simp

/-- A data node that leaves a part of the trie leaves it through its top. -/
theorem HHist.leaves (H : HHist M n) {a σ r : Nat} (hr : r ≤ n) (hσ : σ ≤ r) (hlive : ∀ x, σ ≤ x → x ≤ r → ∃ q, LinkedAt (M x) q a)
    {q' : List (Fin 16)} {i : Fin 16} {q p : List (Fin 16)} (hq : LinkedAt (M σ) q a) (hqi : q' ++ [i] <+: q)
    (hp : LinkedAt (M r) p a) (hpi : ¬ q' ++ [i] <+: p) : ∃ x, σ ≤ x ∧ x ≤ r ∧ LinkedAt (M x) q' a := by
  obtain ⟨d, rfl⟩ : ∃ d, r = σ + d := ⟨r - σ, by omega⟩
  induction d generalizing p with
  | zero =>
    obtain ⟨w, h1, h2⟩ := hq
    obtain ⟨w', h3, h4⟩ := hp
    have := (H.inv _ hr).path_unique h1 h3 h2 h4
    subst this
    exact absurd hqi hpi
  | succ d ih =>
    obtain ⟨p1, hp1⟩ := hlive (σ + d) (by omega) (by omega)
    by_cases hpi1 : q' ++ [i] <+: p1
    · have hm := H.moves (σ + d) (by omega) a p1 p hp1 hp
      rcases hm with rfl | ⟨j, rfl⟩ | ⟨j, rfl⟩
      · exact absurd hpi1 hpi
      · exact absurd (hpi1.trans (List.prefix_append _ _)) hpi
      · refine ⟨σ + (d + 1), by omega, by omega, ?_⟩
        rcases List.prefix_concat_iff.mp hpi1 with h | h
        · have := List.append_inj_left' h rfl
          rw [this]; exact hp
        · exact absurd h hpi
    · obtain ⟨x, h1, h2, h3⟩ := ih hpi1 (by omega) (by omega) (fun x h1 h2 => hlive x h1 (by omega)) hp1
      exact ⟨x, h1, by omega, h3⟩

/-- A node seen alive is not one whose death was known. -/
theorem WSeen.not_dead (H : HHist M n) {V0 : Loc → Nat} (hV : ∀ ℓ, V0 ℓ ≤ n) {a r : Nat} (hs : WSeen M n V0 a)
    (hr : (M n).retired a = some r) {p : List (Fin 16)} (hp : LinkedAt (M r) p a) : ¬ Trail M V0 [] p .root (r + 1) := by
  intro ht
  obtain ⟨σ, q, w, h1, h2, h3, h4, h5⟩ := hs
  have hr1 := (H.retired_at (Nat.le_refl n) hr)
  have hlt : σ ≤ r := by
    apply Classical.byContradiction
    intro h
    have := H.retired_from (Nat.le_refl n) hr (by omega : r < σ) h1
    rw [(H.inv σ h1).live q w a h2 h3] at this; cases this
  have hmem : (M σ).mem a ≠ none := LinkedAt.mem (H.inv σ h1) ⟨w, h2, h3⟩
  have hok := (H.inv σ h1).path_ok h2
  obtain ⟨wp, hp1, hp2⟩ := hp
  cases hd : w.data with
  | false =>
    obtain ⟨c, h6⟩ := hok.of_inner h3 hd
    obtain ⟨c', h7, -⟩ := H.inner hlt (by omega) h6
    have h8 := (H.inv r (by omega)).inner_at h7 (hr1.2 r (Nat.le_refl _))
    have := (H.inv r (by omega)).path_unique hp1 h8 hp2 rfl
    subst this
    have := h4 [] (r + 1) (Or.inl rfl) (by simpa using ht)
    omega
  | true =>
    obtain ⟨l, h6, -⟩ := hok.of_data h3 hd
    rcases part q p with ⟨ns, rfl⟩ | ⟨q', i, s, rfl, ⟨ms, rfl⟩, hpi⟩
    · have := h4 ns (r + 1) (Or.inr (Or.inr hd)) ht
      omega
    · have hlive : ∀ x, σ ≤ x → x ≤ r → ∃ q, LinkedAt (M x) q a := by
        intro x hx1 hx2
        cases hm : (M x).mem a with
        | none => exact absurd hm (H.mem_ne hx1 (by omega) hmem)
        | some nd => exact (H.inv x (by omega)).linked a nd hm (hr1.2 x hx2)
      obtain ⟨x, hx1, hx2, w2, h7, h8⟩ := H.leaves (by omega) hlt hlive ⟨w, h2, h3⟩ (q' := q') (i := i)
        ⟨s, by simp⟩ ⟨wp, hp1, hp2⟩ hpi
      have hno : ∀ b, ¬ NodeAt (M x) q' b := by
        intro b hb
        have h9 := hb.hfollow (H.inv x (by omega))
        rw [h7] at h9
        cases h9
        cases h8
        obtain ⟨⟨c, hc⟩, -⟩ := hb
        rw [H.data hx1 (by omega) h6] at hc
        cases hc
      obtain ⟨τ', h9, h10⟩ := Trail.start H hV q' (p0 := []) ht (x := x) (by omega) (by simpa using hno)
      obtain ⟨b, hb⟩ := h5 q' i s rfl τ' h9 x hx1 h10
      exact hno b hb
end Contrie
