import Verif.Proof.CohCmp
import Verif.Proof.HostileInv
/-
Histories of the memory under weak memory and with misbehaving user code; cf. `Verif/Proof/CohTrail.lean`. Nothing here mentions keys.
-/
set_option linter.unusedSectionVars false
namespace Contrie
variable {K P : Type}

/-- Node `a` is linked at path `q`. -/
def LinkedAt (m : Mem P) (q : List (Fin 16)) (a : Nat) : Prop := ∃ w, m.follow m.root q = some w ∧ w.ptr = some a

/-- In a step nodes move one level up or down at most. -/
def Moves (m m' : Mem P) : Prop := ∀ a q q', LinkedAt m q a → LinkedAt m' q' a → q' = q ∨ (∃ i, q' = q ++ [i]) ∨ ∃ i, q = q' ++ [i]

/-- `M τ` is the memory at instant `τ`, up to instant `n`. -/
structure HHist (M : Nat → Mem P) (n : Nat) : Prop where
  inv : ∀ τ, τ ≤ n → HMemInv (M τ)
  clock : ∀ τ, τ ≤ n → (M τ).clock = τ
  evo : ∀ τ, τ < n → Evo (M τ) (M (τ + 1))
  /-- a node is not changed in the step that retires it -/
  still : ∀ τ, τ < n → ∀ a c p, (M τ).mem a = some (.inner c p) → (M τ).retired a = none →
    (M (τ + 1)).retired a ≠ none → (M (τ + 1)).mem a = some (.inner c p)
  /-- a node is not retired in the step that creates it -/
  born : ∀ τ, τ < n → ∀ a, (M τ).mem a = none → (M (τ + 1)).retired a = none
  /-- nodes move one level up or down at most -/
  moves : ∀ τ, τ < n → Moves (M τ) (M (τ + 1))

section
variable {m : Mem P}

theorem NodeAt.hfollow (h : HMemInv m) {p : List (Fin 16)} {a : Nat} (hn : NodeAt m p a) :
    m.follow m.root p = some ⟨some a, false, false⟩ := by
  obtain ⟨⟨c, hm⟩, hr⟩ := hn
  exact h.inner_at hm hr

theorem NodeAt.hunique (h : HMemInv m) {p : List (Fin 16)} {a b : Nat} (ha : NodeAt m p a) (hb : NodeAt m p b) :
    a = b := by
  have h1 := ha.hfollow h
  have h2 := hb.hfollow h
  rw [h1] at h2
  cases h2; rfl

theorem hnodeAt_of_follow (h : HMemInv m) {p : List (Fin 16)} {w : Word} {a : Nat}
    (hf : m.follow m.root p = some w) (hp : w.ptr = some a) (hd : w.data = false) : NodeAt m p a :=
  ⟨(h.path_ok hf).of_inner hp hd, h.live p w a hf hp⟩

theorem NodeAt.hup (h : HMemInv m) {p : List (Fin 16)} {i : Fin 16} {b : Nat} (hb : NodeAt m (p ++ [i]) b) :
    ∃ a, NodeAt m p a := by
  have h1 := hb.hfollow h
  rw [follow_append] at h1
  cases hf : m.follow m.root p with
  | none => rw [hf] at h1; cases h1
  | some w =>
    rw [hf] at h1
    simp only at h1
    cases hc : m.cellsOf w with
    | none => rw [hc] at h1; cases h1
    | some c =>
      obtain ⟨a, hp, hd, hm⟩ := (h.path_ok hf).cellsOf hc
      exact ⟨a, hnodeAt_of_follow h hf hp hd⟩

theorem LiveAt.hfollow (h : HMemInv m) {ℓ : Loc} {q : List (Fin 16)} {w : Word} (hl : LiveAt m ℓ q w) :
    m.follow m.root q = some w.erase := by
  obtain ⟨hat, hr⟩ := hl
  cases ℓ with
  | root => obtain ⟨rfl, rfl⟩ := hat; rfl
  | slot a i =>
    obtain ⟨c, p, hm, rfl, rfl⟩ := hat
    rw [follow_append' (h.inner_at hm (hr a i rfl))]
    simp [Mem.follow, Mem.cellsOf, hm]

theorem LiveAt.hinner (h : HMemInv m) {ℓ : Loc} {q : List (Fin 16)} {w : Word} (hl : LiveAt m ℓ q w) {a : Nat}
    (hp : w.ptr = some a) (hd : w.data = false) : NodeAt m q a :=
  hnodeAt_of_follow h (hl.hfollow h) (by simpa using hp) (by simpa using hd)

theorem LiveAt.hleaf (h : HMemInv m) {ℓ : Loc} {q : List (Fin 16)} {w : Word} (hl : LiveAt m ℓ q w)
    (hw : w.isLeaf) {a : Nat} : ¬ NodeAt m q a := by
  intro hn
  have h1 := hn.hfollow h
  rw [hl.hfollow h] at h1
  injection h1 with h1
  rcases hw with hw | hw
  · have : w.erase.ptr = none := hw
    rw [h1] at this; cases this
  · have : w.erase.data = true := hw
    rw [h1] at this; cases this

end

section
variable {M : Nat → Mem P} {n : Nat}

theorem HHist.mono (H : HHist M n) {n' : Nat} (h : n' ≤ n) : HHist M n' :=
  ⟨fun τ hτ => H.inv τ (by omega), fun τ hτ => H.clock τ (by omega),
   fun τ hτ => H.evo τ (by omega), fun τ hτ => H.still τ (by omega), fun τ hτ => H.born τ (by omega),
   fun τ hτ => H.moves τ (by omega)⟩

theorem HHist.data (H : HHist M n) {x y : Nat} (hxy : x ≤ y) (hy : y ≤ n) {a : Nat} {l : List P}
    (h : (M x).mem a = some (.data l)) : (M y).mem a = some (.data l) := by
  induction hxy with
  | refl => exact h
  | step hxy ih => exact (H.evo _ hy).data a l (ih (by omega))

theorem HHist.inner (H : HHist M n) {x y : Nat} (hxy : x ≤ y) (hy : y ≤ n) {a : Nat} {c : Fin 16 → Word}
    {p : List (Fin 16)} (h : (M x).mem a = some (.inner c p)) : ∃ c', (M y).mem a = some (.inner c' p) ∧
      ∀ i, (c i).cond = true → c' i = c i := by
  induction hxy with
  | refl => exact ⟨c, h, fun _ _ => rfl⟩
  | step hxy ih =>
    obtain ⟨c', h1, h2⟩ := ih (by omega)
    obtain ⟨c'', h3, h4⟩ := (H.evo _ hy).inner a c' p h1
    refine ⟨c'', h3, fun i hi => ?_⟩
    rw [h4 i (by rw [h2 i hi]; exact hi), h2 i hi]

theorem HHist.retired (H : HHist M n) {x y : Nat} (hxy : x ≤ y) (hy : y ≤ n) {a τ : Nat}
    (h : (M x).retired a = some τ) : (M y).retired a = some τ := by
  induction hxy with
  | refl => exact h
  | step hxy ih => exact (H.evo _ hy).retOld a τ (ih (by omega))

/-- A node retired at `r` was not retired up to `r`. -/
theorem HHist.retired_at (H : HHist M n) {y : Nat} (hy : y ≤ n) {a r : Nat} (h : (M y).retired a = some r) :
    r < y ∧ ∀ x, x ≤ r → (M x).retired a = none := by
  have hlt : r < y := by
    have := ((H.inv y hy).retTime a r h).1
    rwa [H.clock y hy] at this
  refine ⟨hlt, fun x hx => ?_⟩
  cases hr : (M x).retired a with
  | none => rfl
  | some r' =>
    have h1 := H.retired (by omega : x ≤ y) hy hr
    rw [h] at h1; cases h1
    have := ((H.inv x (by omega)).retTime a r hr).1
    rw [H.clock x (by omega)] at this
    omega

theorem HHist.retired_from (H : HHist M n) {y : Nat} (hy : y ≤ n) {a r : Nat} (h : (M y).retired a = some r)
    {x : Nat} (hx : r < x) (hxn : x ≤ n) : (M x).retired a = some r := by
  rcases Nat.le_total x y with hxy | hxy
  · -- retired at some point in between: the time stamp tells when
    cases hr : (M x).retired a with
    | some r' => have := H.retired hxy hy hr; rw [h] at this; rw [this]
    | none =>
      exfalso
      have : ∀ z, x ≤ z → z ≤ y → (M z).retired a = none := by
        intro z hz
        induction hz with
        | refl => intro _; exact hr
        | step hz ih =>
          intro hzy
          have h1 := ih (by omega)
          cases h2 : (M (_ + 1)).retired a with
          | none => rfl
          | some r' =>
            have h3 := (H.evo _ (by omega)).retNew a r' h1 h2
            rw [H.clock _ (by omega)] at h3
            have h4 := H.retired hzy hy h2
            rw [h] at h4; cases h4
            simp only [Nat.le_eq] at hz
            omega
      have := this y hxy (Nat.le_refl _)
      rw [h] at this; cases this
  · exact H.retired hxy hxn h

theorem HHist.node_between (H : HHist M n) {x y z : Nat} {p : List (Fin 16)} {a : Nat} (hx : NodeAt (M x) p a)
    (hy : NodeAt (M y) p a) (hxz : x ≤ z) (hzy : z ≤ y) (hyn : y ≤ n) : NodeAt (M z) p a := by
  obtain ⟨⟨c, hm⟩, -⟩ := hx
  obtain ⟨c', h1, -⟩ := H.inner hxz (by omega) hm
  refine ⟨⟨c', h1⟩, ?_⟩
  cases hr : (M z).retired a with
  | none => rfl
  | some r => have := H.retired hzy hyn hr; rw [hy.2] at this; cases this

/-- Lives of different nodes of the same path are disjoint. -/
theorem HHist.node_order (H : HHist M n) {x y u v : Nat} {p : List (Fin 16)} {a b : Nat} (hx : NodeAt (M x) p a)
    (hy : NodeAt (M y) p b) (hxy : x < y) (hyn : y ≤ n) (hne : a ≠ b) (hu : NodeAt (M u) p a)
    (hv : NodeAt (M v) p b) (hun : u ≤ n) : u < v := by
  apply Classical.byContradiction
  intro hlt
  have hvu : v ≤ u := by omega
  rcases Nat.lt_or_ge x v with h1 | h1
  · have := H.node_between hx hu (by omega) hvu hun
    exact hne (this.hunique (H.inv v (by omega)) hv)
  · have := H.node_between hv hy h1 (by omega) hyn
    exact hne (hx.hunique (H.inv x (by omega)) this)

theorem HHist.at_inv (H : HHist M n) {τ : Nat} (hτ : τ ≤ n) {a : Nat} {i : Fin 16} {q : List (Fin 16)} {w : Word}
    (h : (M τ).At (.slot a i) q w) {r : Nat} (hr : (M τ).retired a = some r) : LiveAt (M r) (.slot a i) q w := by
  obtain ⟨c, p, hm, rfl, rfl⟩ := h
  obtain ⟨h1, h2⟩ := H.retired_at hτ hr
  have h3 := H.retired_from hτ hr (Nat.lt_succ_self r) (by omega)
  -- what the node was at its retirement
  have hex : ∃ c', (M (r + 1)).mem a = some (.inner c' p) := by
    have hne := ((H.inv (r + 1) (by omega)).retTime a r h3).2
    cases hm1 : (M (r + 1)).mem a with
    | none => exact absurd hm1 hne
    | some nd =>
      cases nd with
      | data l => have := H.data (by omega : r + 1 ≤ τ) hτ hm1; rw [hm] at this; cases this
      | inner c' p' =>
        obtain ⟨c'', h4, -⟩ := H.inner (by omega : r + 1 ≤ τ) hτ hm1
        rw [hm] at h4; cases h4
        exact ⟨c', rfl⟩
  obtain ⟨c', hc'⟩ := hex
  have hfr := (H.inv (r + 1) (by omega)).frozen a c' p r hc' h3
  obtain ⟨c'', h4, h5⟩ := H.inner (by omega : r + 1 ≤ τ) hτ hc'
  rw [hm] at h4; cases h4
  have hcc : c i = c' i := h5 i (hfr i)
  -- before the step
  have hex0 : (M r).mem a = some (.inner c' p) := by
    cases hm0 : (M r).mem a with
    | none =>
      have := H.born r (by omega) a hm0
      rw [h3] at this; cases this
    | some nd =>
      cases nd with
      | data l => have := H.data (by omega : r ≤ τ) hτ hm0; rw [hm] at this; cases this
      | inner c0 p0 =>
        have h6 := H.still r (by omega) a c0 p0 hm0 (h2 r (Nat.le_refl _)) (by rw [h3]; simp)
        rw [h6] at hc'; cases hc'; rfl
  exact ⟨⟨c', p, hex0, rfl, hcc.symm⟩, by intro a' i' e; cases e; exact h2 r (Nat.le_refl _)⟩
end
end Contrie
