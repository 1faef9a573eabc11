import Verif.Proof.WildTrail
/-
Trails with misbehaving user code; cf. `Verif/Proof/CohCmp.lean`.
-/
set_option linter.unusedSectionVars false
namespace Contrie
variable {K P : Type} {M : Nat → Mem P} {n : Nat}

/-- A word found at instant `τ` was linked at some instant `σ` up to `τ`, the last one at which its location was in use. -/
theorem HHist.eff (H : HHist M n) {τ : Nat} (hτ : τ ≤ n) {ℓ : Loc} {p : List (Fin 16)} {w : Word}
    (h : (M τ).At ℓ p w) : ∃ σ, σ ≤ τ ∧ LiveAt (M σ) ℓ p w ∧
      ∀ σt, σt ≤ τ → ∀ p' w', LiveAt (M σt) ℓ p' w' → σt ≤ σ := by
  cases ℓ with
  | root => exact ⟨τ, Nat.le_refl _, ⟨h, fun _ _ e => by cases e⟩, fun σt h _ _ _ => h⟩
  | slot a i =>
    cases hr : (M τ).retired a with
    | none => exact ⟨τ, Nat.le_refl _, ⟨h, fun _ _ e => by cases e; exact hr⟩, fun σt h _ _ _ => h⟩
    | some r =>
      obtain ⟨h1, h2⟩ := H.retired_at hτ hr
      refine ⟨r, by omega, H.at_inv hτ h hr, ?_⟩
      intro σt hσ p' w' hl
      apply Classical.byContradiction
      intro hlt
      have := H.retired_from hτ hr (by omega : r < σt) (by omega)
      rw [hl.2 a i rfl] at this; cases this

/-- Where the path has no inner node any more, the trail below a former one is over. -/
theorem Trail.hunder (H : HHist M n) {V : Loc → Nat} (hV : ∀ ℓ, V ℓ ≤ n) {p ns : List (Fin 16)} {ℓ : Loc} {τ0 : Nat}
    (ht : Trail M V p ns ℓ τ0) {p' : List (Fin 16)} {i : Fin 16} {a : Nat} (hp : p = p' ++ [i]) (hℓ : ℓ = .slot a i)
    {s σ : Nat} (hs : NodeAt (M s) p' a) (hsσ : s ≤ σ) (hσ : σ ≤ n) (hno : ∀ b, ¬ NodeAt (M σ) p' b) : τ0 ≤ σ := by
  have first : ∀ {σ1 : Nat} {ℓ : Loc} {p : List (Fin 16)} {w : Word} {p' : List (Fin 16)} {i : Fin 16} {a : Nat},
      p = p' ++ [i] → ℓ = .slot a i →
      (∃ s, s ≤ σ ∧ NodeAt (M s) p' a) → (∀ b, ¬ NodeAt (M σ) p' b) → σ1 ≤ V ℓ → LiveAt (M σ1) ℓ p w → σ1 ≤ σ := by
    intro σ1 ℓ p w p' i a hp hℓ hs hno h1 hl
    obtain ⟨s, hsσ, hs⟩ := hs
    subst hℓ
    obtain ⟨p2, e, hn⟩ := hl.node
    rw [hp] at e
    have e' := (List.append_inj_left' e rfl)
    subst e'
    apply Classical.byContradiction
    intro hlt
    exact hno a (H.node_between hs hn hsσ (by omega) (Nat.le_trans h1 (hV _)))
  have hs' : ∃ s, s ≤ σ ∧ NodeAt (M s) p' a := ⟨s, hsσ, hs⟩
  clear hs hsσ
  induction ht generalizing p' i a with
  | stop p ℓ σ1 w h1 hl => exact first hp hℓ hs' hno h1 hl
  | leaf p ns ℓ σ1 w h1 hl hw => exact first hp hℓ hs' hno h1 hl
  | inner p j ns ℓ σ1 w b τ0 h1 hl hptr hd _ ih =>
    have h2 := first hp hℓ hs' hno h1 hl
    refine ih rfl rfl ?_ ⟨σ1, h2, hl.hinner (H.inv σ1 (by omega)) hptr hd⟩
    intro b' hb
    rw [hp] at hb
    obtain ⟨c, hc⟩ := hb.hup (H.inv σ hσ)
    exact hno c hc

/-- Reading on, at an instant not before the one known from the trail. -/
theorem Trail.hread (H : HHist M n) {V : Loc → Nat} (hV : ∀ ℓ, V ℓ ≤ n) {p ns : List (Fin 16)} {ℓ cur : Loc} {τ0 : Nat}
    (ht : Trail M V p ns ℓ τ0) {σ : Nat} {w : Word} (hσ : σ ≤ n) (hl : LiveAt (M σ) cur p w)
    (hfirst : ∀ σt w', σt ≤ V ℓ → LiveAt (M σt) ℓ p w' → σt ≤ σ) :
    (ns = [] ∨ w.isLeaf → τ0 ≤ σ) ∧ (∀ a i ns', w.ptr = some a → w.data = false → ns = i :: ns' →
      Cmp M n V (p ++ [i]) ns' (.slot a i) τ0) := by
  cases ht with
  | stop p ℓ σt w' h1 hl' =>
    exact ⟨fun _ => hfirst _ _ h1 hl', fun a i ns' _ _ e => by cases e⟩
  | leaf p ns ℓ σt w' h1 hl' hw =>
    have hle := hfirst _ _ h1 hl'
    refine ⟨fun _ => hle, ?_⟩
    intro a i ns' hp hd _
    exact .newer a i p σ rfl rfl (hl.hinner (H.inv σ hσ) hp hd) hle hσ
      (fun c => hl'.hleaf (H.inv _ (by omega)) hw)
  | inner p j ns1 ℓ σt w' a' τ0 h1 hl' hp' hd' ht' =>
    have hle := hfirst _ _ h1 hl'
    have hn' := hl'.hinner (H.inv σt (by omega)) hp' hd'
    refine ⟨?_, ?_⟩
    · rintro (e | hw)
      · cases e
      · exact ht'.hunder H hV rfl rfl hn' hle hσ (fun b => hl.hleaf (H.inv σ hσ) hw)
    · intro a i ns' hp hd e
      cases e
      have hn := hl.hinner (H.inv σ hσ) hp hd
      by_cases hne : a' = a
      · subst hne; exact .same ht'
      · refine .older a' a j p σt σ rfl ht' rfl hne ?_ hσ hn' hn
        rcases Nat.lt_or_ge σt σ with h | h
        · exact h
        · have : σt = σ := by omega
          subst this
          exact absurd (hn'.hunique (H.inv σt hσ) hn) hne

/-- Reading on. -/
theorem Cmp.hread (H : HHist M n) {V : Loc → Nat} (hV : ∀ ℓ, V ℓ ≤ n) {p ns : List (Fin 16)} {cur : Loc} {τ0 : Nat}
    (hc : Cmp M n V p ns cur τ0) {σ τ : Nat} {w : Word} (hVτ : V cur ≤ τ) (hσ : σ ≤ n) (hl : LiveAt (M σ) cur p w)
    (heff : ∀ σt, σt ≤ τ → ∀ p' w', LiveAt (M σt) cur p' w' → σt ≤ σ) :
    (ns = [] ∨ w.isLeaf → τ0 ≤ σ) ∧ (∀ a i ns', w.ptr = some a → w.data = false → ns = i :: ns' →
      Cmp M n V (p ++ [i]) ns' (.slot a i) τ0) := by
  cases hc with
  | same ht => exact ht.hread H hV hσ hl (fun σt w' h1 h2 => heff σt (by omega) p w' h2)
  | older a b i p' x y hp ht hc hne hxy hy ha hb =>
    refine ht.hread H hV hσ hl ?_
    intro σt w' h1 h2
    subst hc
    obtain ⟨p2, e2, hn2⟩ := h2.node
    obtain ⟨p3, e3, hn3⟩ := hl.node
    rw [hp] at e2 e3
    have e2' := (List.append_inj_left' e2 rfl)
    have e3' := (List.append_inj_left' e3 rfl)
    subst e2' e3'
    exact Nat.le_of_lt (H.node_order ha hb hxy hy hne hn2 hn3 (Nat.le_trans h1 (hV _)))
  | newer b i p' y hp hc hb hy hn hno =>
    subst hc
    obtain ⟨p3, e3, hn3⟩ := hl.node
    rw [hp] at e3
    have e3' := (List.append_inj_left' e3 rfl)
    subst e3'
    have hle : τ0 ≤ σ := by
      apply Classical.byContradiction
      intro hlt
      exact hno b (H.node_between hn3 hb (by omega) hy hn)
    refine ⟨fun _ => hle, ?_⟩
    intro a j ns' hp' hd' _
    refine .newer a j p σ rfl rfl (hl.hinner (H.inv σ hσ) hp' hd') hle hσ ?_
    intro c hc
    rw [hp] at hc
    obtain ⟨b', hb'⟩ := hc.hup (H.inv τ0 (by omega))
    exact hno b' hb'

theorem Reached.hread (H : HHist M n) {V0 V V' : Loc → Nat} (hV : ∀ ℓ, V ℓ ≤ n) {p : List (Fin 16)} {ℓ : Loc}
    (hr : Reached M n V0 V p ℓ) (hVV : ∀ ℓ, V ℓ ≤ V' ℓ) {τ : Nat} {w : Word} (hVτ : V ℓ ≤ τ) (hτ : τ ≤ n)
    (hV' : τ ≤ V' ℓ) (hat : (M τ).At ℓ p w) : ∃ σ, Learnt M n V0 V' p ℓ w τ σ := by
  obtain ⟨σ, h1, h2, h3⟩ := H.eff hτ hat
  refine ⟨σ, h1, h2, ?_, ?_, ?_⟩
  · intro ns τ0 hns ht
    exact ((hr.cmp ns τ0 ht).hread H hV hVτ (by omega) h2 h3).1 hns
  · intro ns hns
    refine (hr.chain.mono hVV).trail ?_
    rcases hns with rfl | hw
    · exact .stop p ℓ σ w (by omega) h2
    · exact .leaf p ns ℓ σ w (by omega) h2 hw
  · intro a i hp hd
    refine ⟨.down p ℓ σ w a i (by omega) h2 hp hd (hr.chain.mono hVV), ?_⟩
    intro ns τ0 ht
    have := ((hr.cmp (i :: ns) τ0 (by simpa using ht)).hread H hV hVτ (by omega) h2 h3).2 a i ns hp hd rfl
    exact this.mono hVV (Nat.le_refl _)

end Contrie
