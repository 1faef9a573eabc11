import Verif.Proof.CohTrail
/-
Trails: what a session's view tells about a path. Comparison of a session's position with what it knew before.
-/
set_option linter.unusedSectionVars false
namespace Contrie
variable {K P : Type} [DecidableEq K]
variable {cfg : Config K P} {A : Nat → AMap K P} {M : Nat → Mem P} {n : Nat}

/-- A word found at instant `τ` was linked at some instant `σ` up to `τ`, the last one at which its location was in use. -/
theorem Hist.eff (H : Hist cfg A M n) {τ : Nat} (hτ : τ ≤ n) {ℓ : Loc} {p : List (Fin 16)} {w : Word}
    (h : (M τ).At ℓ p w) : ∃ σ, σ ≤ τ ∧ LiveAt (M σ) ℓ p w ∧
      ∀ σt, σt ≤ τ → ∀ p' w', LiveAt (M σt) ℓ p' w' → σt ≤ σ := by
  cases ℓ with
  | root => exact ⟨τ, Nat.le_refl _, ⟨h, fun _ _ e => by cases e⟩, fun σt h _ _ _ => h⟩
  | slot a i =>
    cases hr : (M τ).retired a with
    | none => exact ⟨τ, Nat.le_refl _, ⟨h, fun _ _ e => by cases e; exact hr⟩, fun σt h _ _ _ => h⟩
    | some r =>
      obtain ⟨h1, h2⟩ := H.retired_at hτ hr
      refine ⟨r, by omega, H.at_inv hτ h hr, ?_⟩
      intro σt hσ p' w' hl
      apply Classical.byContradiction
      intro hlt
      have := H.retired_from hτ hr (by omega : r < σt) (by omega)
      rw [hl.2 a i rfl] at this; cases this

/-- A session with view `V` knows, at location `ℓ` of path `p`, that along the nibbles `ns` nothing older than instant
`τ0` can be seen any more. -/
inductive Trail (M : Nat → Mem P) (V : Loc → Nat) : List (Fin 16) → List (Fin 16) → Loc → Nat → Prop
  | stop (p : List (Fin 16)) (ℓ : Loc) (σ : Nat) (w : Word) (hσ : σ ≤ V ℓ) (hl : LiveAt (M σ) ℓ p w) :
      Trail M V p [] ℓ σ
  | leaf (p ns : List (Fin 16)) (ℓ : Loc) (σ : Nat) (w : Word) (hσ : σ ≤ V ℓ) (hl : LiveAt (M σ) ℓ p w)
      (hw : w.isLeaf) : Trail M V p ns ℓ σ
  | inner (p : List (Fin 16)) (i : Fin 16) (ns : List (Fin 16)) (ℓ : Loc) (σ : Nat) (w : Word) (a τ0 : Nat)
      (hσ : σ ≤ V ℓ) (hl : LiveAt (M σ) ℓ p w) (hp : w.ptr = some a) (hd : w.data = false)
      (ht : Trail M V (p ++ [i]) ns (.slot a i) τ0) : Trail M V p (i :: ns) ℓ τ0

theorem Trail.mono {V V' : Loc → Nat} (h : ∀ ℓ, V ℓ ≤ V' ℓ) {p ns : List (Fin 16)} {ℓ : Loc} {τ0 : Nat}
    (ht : Trail M V p ns ℓ τ0) : Trail M V' p ns ℓ τ0 := by
  induction ht with
  | stop p ℓ σ w hσ hl => exact .stop p ℓ σ w (Nat.le_trans hσ (h _)) hl
  | leaf p ns ℓ σ w hσ hl hw => exact .leaf p ns ℓ σ w (Nat.le_trans hσ (h _)) hl hw
  | inner p i ns ℓ σ w a τ0 hσ hl hp hd _ ih => exact .inner p i ns ℓ σ w a τ0 (Nat.le_trans hσ (h _)) hl hp hd ih

theorem Trail.le {V : Loc → Nat} (hV : ∀ ℓ, V ℓ ≤ n) {p ns : List (Fin 16)} {ℓ : Loc} {τ0 : Nat}
    (ht : Trail M V p ns ℓ τ0) : τ0 ≤ n := by
  induction ht with
  | stop p ℓ σ w hσ hl => exact Nat.le_trans hσ (hV _)
  | leaf p ns ℓ σ w hσ hl hw => exact Nat.le_trans hσ (hV _)
  | inner p i ns ℓ σ w a τ0 hσ hl hp hd _ ih => exact ih

/-- Where the path has no inner node any more, the trail below a former one is over. -/
theorem Trail.under (H : Hist cfg A M n) {V : Loc → Nat} (hV : ∀ ℓ, V ℓ ≤ n) {p ns : List (Fin 16)} {ℓ : Loc} {τ0 : Nat}
    (ht : Trail M V p ns ℓ τ0) {p' : List (Fin 16)} {i : Fin 16} {a : Nat} (hp : p = p' ++ [i]) (hℓ : ℓ = .slot a i)
    {s σ : Nat} (hs : NodeAt (M s) p' a) (hsσ : s ≤ σ) (hσ : σ ≤ n) (hno : ∀ b, ¬ NodeAt (M σ) p' b) : τ0 ≤ σ := by
  have first : ∀ {σ1 : Nat} {ℓ : Loc} {p : List (Fin 16)} {w : Word} {p' : List (Fin 16)} {i : Fin 16} {a : Nat},
      p = p' ++ [i] → ℓ = .slot a i →
      (∃ s, s ≤ σ ∧ NodeAt (M s) p' a) → (∀ b, ¬ NodeAt (M σ) p' b) → σ1 ≤ V ℓ → LiveAt (M σ1) ℓ p w → σ1 ≤ σ := by
    intro σ1 ℓ p w p' i a hp hℓ hs hno h1 hl
    obtain ⟨s, hsσ, hs⟩ := hs
    subst hℓ
    obtain ⟨p2, e, hn⟩ := hl.node
    rw [hp] at e
    have e' := (List.append_inj_left' e rfl)
    subst e'
    apply Classical.byContradiction
    intro hlt
    exact hno a (H.node_between hs hn hsσ (by omega) (Nat.le_trans h1 (hV _)))
  have hs' : ∃ s, s ≤ σ ∧ NodeAt (M s) p' a := ⟨s, hsσ, hs⟩
  clear hs hsσ
  induction ht generalizing p' i a with
  | stop p ℓ σ1 w h1 hl => exact first hp hℓ hs' hno h1 hl
  | leaf p ns ℓ σ1 w h1 hl hw => exact first hp hℓ hs' hno h1 hl
  | inner p j ns ℓ σ1 w b τ0 h1 hl hptr hd _ ih =>
    have h2 := first hp hℓ hs' hno h1 hl
    refine ih rfl rfl ?_ ⟨σ1, h2, hl.inner (H.inv σ1 (by omega)) hptr hd⟩
    intro b' hb
    rw [hp] at hb
    obtain ⟨c, hc⟩ := hb.up (H.inv σ hσ)
    exact hno c hc

/-- A position compared with former knowledge `τ0`: at location `cur` of path `p`, with the nibbles `ns` to go. -/
inductive Cmp (M : Nat → Mem P) (n : Nat) (V : Loc → Nat) (p ns : List (Fin 16)) (cur : Loc) (τ0 : Nat) : Prop
  /-- the location is on the trail -/
  | same (ht : Trail M V p ns cur τ0)
  /-- the trail goes through an older node of the same path -/
  | older (a b : Nat) (i : Fin 16) (p' : List (Fin 16)) (x y : Nat) (hp : p = p' ++ [i])
      (ht : Trail M V p ns (.slot a i) τ0) (hc : cur = .slot b i) (hne : a ≠ b) (hxy : x < y) (hy : y ≤ n)
      (ha : NodeAt (M x) p' a) (hb : NodeAt (M y) p' b)
  /-- the trail has ended, and the node is younger than its end -/
  | newer (b : Nat) (i : Fin 16) (p' : List (Fin 16)) (y : Nat) (hp : p = p' ++ [i]) (hc : cur = .slot b i)
      (hb : NodeAt (M y) p' b) (hy : τ0 ≤ y) (hn : y ≤ n) (hno : ∀ c, ¬ NodeAt (M τ0) p' c)

theorem Cmp.mono {V V' : Loc → Nat} (h : ∀ ℓ, V ℓ ≤ V' ℓ) {n' : Nat} (hn : n ≤ n') {p ns : List (Fin 16)} {cur : Loc} {τ0 : Nat}
    (hc : Cmp M n V p ns cur τ0) : Cmp M n' V' p ns cur τ0 := by
  cases hc with
  | same ht => exact .same (ht.mono h)
  | older a b i p' x y hp ht hc hne hxy hy ha hb => exact .older a b i p' x y hp (ht.mono h) hc hne hxy (by omega) ha hb
  | newer b i p' y hp hc hb hy hn hno => exact .newer b i p' y hp hc hb hy (by omega) hno

theorem not_leaf {w : Word} {a : Nat} (hp : w.ptr = some a) (hd : w.data = false) : ¬ w.isLeaf := by
  rintro (h | h)
  · rw [hp] at h; cases h
  · rw [hd] at h; cases h

theorem leaf_or_inner (w : Word) : w.isLeaf ∨ ∃ a, w.ptr = some a ∧ w.data = false := by
  cases hp : w.ptr with
  | none => exact Or.inl (Or.inl hp)
  | some a =>
    cases hd : w.data with
    | true => exact Or.inl (Or.inr hd)
    | false => exact Or.inr ⟨a, rfl, rfl⟩

/-- Reading on, at an instant not before the one known from the trail. -/
theorem Trail.read (H : Hist cfg A M n) {V : Loc → Nat} (hV : ∀ ℓ, V ℓ ≤ n) {p ns : List (Fin 16)} {ℓ cur : Loc} {τ0 : Nat}
    (ht : Trail M V p ns ℓ τ0) {σ : Nat} {w : Word} (hσ : σ ≤ n) (hl : LiveAt (M σ) cur p w)
    (hfirst : ∀ σt w', σt ≤ V ℓ → LiveAt (M σt) ℓ p w' → σt ≤ σ) :
    (ns = [] ∨ w.isLeaf → τ0 ≤ σ) ∧ (∀ a i ns', w.ptr = some a → w.data = false → ns = i :: ns' →
      Cmp M n V (p ++ [i]) ns' (.slot a i) τ0) := by
  cases ht with
  | stop p ℓ σt w' h1 hl' =>
    exact ⟨fun _ => hfirst _ _ h1 hl', fun a i ns' _ _ e => by cases e⟩
  | leaf p ns ℓ σt w' h1 hl' hw =>
    have hle := hfirst _ _ h1 hl'
    refine ⟨fun _ => hle, ?_⟩
    intro a i ns' hp hd _
    exact .newer a i p σ rfl rfl (hl.inner (H.inv σ hσ) hp hd) hle hσ
      (fun c => hl'.leaf (H.inv _ (by omega)) hw)
  | inner p j ns1 ℓ σt w' a' τ0 h1 hl' hp' hd' ht' =>
    have hle := hfirst _ _ h1 hl'
    have hn' := hl'.inner (H.inv σt (by omega)) hp' hd'
    refine ⟨?_, ?_⟩
    · rintro (e | hw)
      · cases e
      · exact ht'.under H hV rfl rfl hn' hle hσ (fun b => hl.leaf (H.inv σ hσ) hw)
    · intro a i ns' hp hd e
      cases e
      have hn := hl.inner (H.inv σ hσ) hp hd
      by_cases hne : a' = a
      · subst hne; exact .same ht'
      · refine .older a' a j p σt σ rfl ht' rfl hne ?_ hσ hn' hn
        rcases Nat.lt_or_ge σt σ with h | h
        · exact h
        · have : σt = σ := by omega
          subst this
          exact absurd (hn'.unique (H.inv σt hσ) hn) hne

/-- Reading on. -/
theorem Cmp.read (H : Hist cfg A M n) {V : Loc → Nat} (hV : ∀ ℓ, V ℓ ≤ n) {p ns : List (Fin 16)} {cur : Loc} {τ0 : Nat}
    (hc : Cmp M n V p ns cur τ0) {σ τ : Nat} {w : Word} (hVτ : V cur ≤ τ) (hσ : σ ≤ n) (hl : LiveAt (M σ) cur p w)
    (heff : ∀ σt, σt ≤ τ → ∀ p' w', LiveAt (M σt) cur p' w' → σt ≤ σ) :
    (ns = [] ∨ w.isLeaf → τ0 ≤ σ) ∧ (∀ a i ns', w.ptr = some a → w.data = false → ns = i :: ns' →
      Cmp M n V (p ++ [i]) ns' (.slot a i) τ0) := by
  cases hc with
  | same ht => exact ht.read H hV hσ hl (fun σt w' h1 h2 => heff σt (by omega) p w' h2)
  | older a b i p' x y hp ht hc hne hxy hy ha hb =>
    refine ht.read H hV hσ hl ?_
    intro σt w' h1 h2
    subst hc
    obtain ⟨p2, e2, hn2⟩ := h2.node
    obtain ⟨p3, e3, hn3⟩ := hl.node
    rw [hp] at e2 e3
    have e2' := (List.append_inj_left' e2 rfl)
    have e3' := (List.append_inj_left' e3 rfl)
    subst e2' e3'
    exact Nat.le_of_lt (H.node_order ha hb hxy hy hne hn2 hn3 (Nat.le_trans h1 (hV _)))
  | newer b i p' y hp hc hb hy hn hno =>
    subst hc
    obtain ⟨p3, e3, hn3⟩ := hl.node
    rw [hp] at e3
    have e3' := (List.append_inj_left' e3 rfl)
    subst e3'
    have hle : τ0 ≤ σ := by
      apply Classical.byContradiction
      intro hlt
      exact hno b (H.node_between hn3 hb (by omega) hy hn)
    refine ⟨fun _ => hle, ?_⟩
    intro a j ns' hp' hd' _
    refine .newer a j p σ rfl rfl (hl.inner (H.inv σ hσ) hp' hd') hle hσ ?_
    intro c hc
    rw [hp] at hc
    obtain ⟨b', hb'⟩ := hc.up (H.inv τ0 (by omega))
    exact hno b' hb'

/-- How a session got to a location of path `p`. -/
inductive Chain (M : Nat → Mem P) (V : Loc → Nat) : List (Fin 16) → Loc → Prop
  | root : Chain M V [] .root
  | down (p : List (Fin 16)) (ℓ : Loc) (σ : Nat) (w : Word) (a : Nat) (i : Fin 16) (hσ : σ ≤ V ℓ)
      (hl : LiveAt (M σ) ℓ p w) (hp : w.ptr = some a) (hd : w.data = false) (hc : Chain M V p ℓ) :
      Chain M V (p ++ [i]) (.slot a i)

theorem Chain.mono {V V' : Loc → Nat} (h : ∀ ℓ, V ℓ ≤ V' ℓ) {p : List (Fin 16)} {ℓ : Loc} (hc : Chain M V p ℓ) :
    Chain M V' p ℓ := by
  induction hc with
  | root => exact .root
  | down p ℓ σ w a i hσ hl hp hd _ ih => exact .down p ℓ σ w a i (Nat.le_trans hσ (h _)) hl hp hd ih

/-- What is known at a location that was reached is known at the root. -/
theorem Chain.trail {V : Loc → Nat} {p : List (Fin 16)} {ℓ : Loc} (hc : Chain M V p ℓ) {ns : List (Fin 16)} {τ0 : Nat}
    (ht : Trail M V p ns ℓ τ0) : Trail M V [] (p ++ ns) .root τ0 := by
  induction hc generalizing ns with
  | root => exact ht
  | down p ℓ σ w a i hσ hl hp hd _ ih =>
    have := ih (.inner p i ns ℓ σ w a τ0 hσ hl hp hd ht)
    simpa using this

/-- A location of path `p` reached by a session which knew `V0` before. -/
structure Reached (M : Nat → Mem P) (n : Nat) (V0 V : Loc → Nat) (p : List (Fin 16)) (ℓ : Loc) : Prop where
  chain : Chain M V p ℓ
  cmp : ∀ ns τ0, Trail M V0 [] (p ++ ns) .root τ0 → Cmp M n V p ns ℓ τ0

theorem Reached.mono {V0 V V' : Loc → Nat} (h : ∀ ℓ, V ℓ ≤ V' ℓ) {n' : Nat} (hn : n ≤ n') {p : List (Fin 16)} {ℓ : Loc}
    (hr : Reached M n V0 V p ℓ) : Reached M n' V0 V' p ℓ :=
  ⟨hr.chain.mono h, fun ns τ0 ht => (hr.cmp ns τ0 ht).mono h hn⟩

theorem Reached.root {V0 V : Loc → Nat} (h : ∀ ℓ, V0 ℓ ≤ V ℓ) : Reached M n V0 V [] .root :=
  ⟨.root, fun _ _ ht => .same (ht.mono h)⟩

/-- What a session learns from the load of a location it has reached. -/
structure Learnt (M : Nat → Mem P) (n : Nat) (V0 V' : Loc → Nat) (p : List (Fin 16)) (ℓ : Loc) (w : Word) (τ σ : Nat) :
    Prop where
  le : σ ≤ τ
  live : LiveAt (M σ) ℓ p w
  /-- it is not older than what was known before -/
  fresh : ∀ ns τ0, ns = [] ∨ w.isLeaf → Trail M V0 [] (p ++ ns) .root τ0 → τ0 ≤ σ
  /-- and it will be remembered -/
  trail : ∀ ns, ns = [] ∨ w.isLeaf → Trail M V' [] (p ++ ns) .root σ
  down : ∀ a i, w.ptr = some a → w.data = false → Reached M n V0 V' (p ++ [i]) (.slot a i)

theorem Reached.read (H : Hist cfg A M n) {V0 V V' : Loc → Nat} (hV : ∀ ℓ, V ℓ ≤ n) {p : List (Fin 16)} {ℓ : Loc}
    (hr : Reached M n V0 V p ℓ) (hVV : ∀ ℓ, V ℓ ≤ V' ℓ) {τ : Nat} {w : Word} (hVτ : V ℓ ≤ τ) (hτ : τ ≤ n)
    (hV' : τ ≤ V' ℓ) (hat : (M τ).At ℓ p w) : ∃ σ, Learnt M n V0 V' p ℓ w τ σ := by
  obtain ⟨σ, h1, h2, h3⟩ := H.eff hτ hat
  refine ⟨σ, h1, h2, ?_, ?_, ?_⟩
  · intro ns τ0 hns ht
    exact ((hr.cmp ns τ0 ht).read H hV hVτ (by omega) h2 h3).1 hns
  · intro ns hns
    refine (hr.chain.mono hVV).trail ?_
    rcases hns with rfl | hw
    · exact .stop p ℓ σ w (by omega) h2
    · exact .leaf p ns ℓ σ w (by omega) h2 hw
  · intro a i hp hd
    refine ⟨.down p ℓ σ w a i (by omega) h2 hp hd (hr.chain.mono hVV), ?_⟩
    intro ns τ0 ht
    have := ((hr.cmp (i :: ns) τ0 (by simpa using ht)).read H hV hVτ (by omega) h2 h3).2 a i ns hp hd rfl
    exact this.mono hVV (Nat.le_refl _)

/-! ### Nodes seen alive -/

/-- What a session that knew `V0` knows about the death of node `a` before instant `τ0`. -/
def Obit (cfg : Config K P) (M : Nat → Mem P) (V0 : Loc → Nat) (nd : Node P) (τ0 : Nat) : Prop :=
  match nd with
  | .inner _ p => Trail M V0 [] p .root τ0
  | .data l => ∃ x ∈ l, Trail M V0 [] (nibs (cfg.hash (cfg.key x))) .root τ0

/-- Node `a` was in use at an instant not before what was known. -/
def SeenLive (cfg : Config K P) (M : Nat → Mem P) (n : Nat) (V0 : Loc → Nat) (a : Nat) : Prop :=
  ∃ σ nd, σ ≤ n ∧ (M σ).mem a = some nd ∧ (M σ).retired a = none ∧ ∀ τ0, Obit cfg M V0 nd τ0 → τ0 ≤ σ

theorem SeenLive.mono {V0 : Loc → Nat} {a n' : Nat} (h : SeenLive cfg M n V0 a) (hn : n ≤ n') : SeenLive cfg M n' V0 a := by
  obtain ⟨σ, nd, h1, h2⟩ := h
  exact ⟨σ, nd, by omega, h2⟩

theorem Obit.mono {V0 V : Loc → Nat} (h : ∀ ℓ, V0 ℓ ≤ V ℓ) {nd : Node P} {τ0 : Nat} (ho : Obit cfg M V0 nd τ0) :
    Obit cfg M V nd τ0 := by
  cases nd with
  | inner c p => exact Trail.mono h ho
  | data l => obtain ⟨x, h1, h2⟩ := ho; exact ⟨x, h1, h2.mono h⟩

/-- A node found in a location that was reached. -/
theorem Learnt.seen (H : Hist cfg A M n) {V0 V' : Loc → Nat} {p : List (Fin 16)} {ℓ : Loc} {w : Word} {τ σ : Nat}
    (hl : Learnt M n V0 V' p ℓ w τ σ) (hτ : τ ≤ n) {a : Nat} (hp : w.ptr = some a) : SeenLive cfg M n V0 a := by
  have hσ : σ ≤ n := by have := hl.le; omega
  have h := H.inv σ hσ
  have hf := hl.live.follow h
  have hr := h.live p _ a hf (by simpa using hp)
  have hok : WordOK cfg (M σ) w p := (h.path_ok hf).congr (by simp)
  cases hd : w.data with
  | true =>
    obtain ⟨l, h1, h2⟩ := hok.of_data hp hd
    refine ⟨σ, _, hσ, h1, hr, ?_⟩
    rintro τ0 ⟨x, hx, ht⟩
    obtain ⟨ns, hns⟩ := h2.pre x hx
    rw [← hns] at ht
    exact hl.fresh ns τ0 (Or.inr (Or.inr hd)) ht
  | false =>
    obtain ⟨c, h1⟩ := hok.of_inner hp hd
    refine ⟨σ, _, hσ, h1, hr, ?_⟩
    intro τ0 ht
    exact hl.fresh [] τ0 (Or.inl rfl) (by simpa [Obit] using ht)

/-- A node seen alive is not one whose death was known. -/
theorem SeenLive.not_dead (H : Hist cfg A M n) {V0 : Loc → Nat} {a r : Nat} (hs : SeenLive cfg M n V0 a)
    (hr : (M n).retired a = some r) {nd : Node P} (hn : (M r).mem a = some nd) : ¬ Obit cfg M V0 nd (r + 1) := by
  intro ho
  obtain ⟨σ, nd', h1, h2, h3, h4⟩ := hs
  have hlt : σ ≤ r := by
    apply Classical.byContradiction
    intro h
    have := H.retired_from (Nat.le_refl n) hr (by omega : r < σ) h1
    rw [h3] at this; cases this
  have hr1 := (H.retired_at (Nat.le_refl n) hr).1
  have : Obit cfg M V0 nd' (r + 1) := by
    cases nd' with
    | inner c p =>
      obtain ⟨c', h5, -⟩ := H.inner hlt (by omega) h2
      rw [hn] at h5; cases h5; exact ho
    | data l =>
      have h5 := H.data hlt (by omega) h2
      rw [hn] at h5; cases h5; exact ho
  have := h4 _ this
  omega

end Contrie
