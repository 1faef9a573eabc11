import Verif.Proof.CohBase
import Verif.Proof.CohIter
/-
Steps of the coherent machine: what a step sees, and what it does.
-/
set_option linter.unusedSectionVars false
namespace Contrie
variable {K P : Type} [DecidableEq K]

section
variable {cfg : Config K P} {A : Nat → AMap K P} {M : Nat → Mem P} {n : Nat}

theorem Hist.wordOK (H : Hist cfg A M n) {x y : Nat} (hxy : x ≤ y) (hy : y ≤ n) {w : Word} {q : List (Fin 16)}
    (h : WordOK cfg (M x) w q) : WordOK cfg (M y) w q := by
  induction hxy with
  | refl => exact h
  | step hxy ih => exact (ih (by omega)).evo (H.evo _ hy)

theorem Hist.leafVal (H : Hist cfg A M n) {x y : Nat} (hxy : x ≤ y) (hy : y ≤ n) {w : Word} {q : List (Fin 16)} {k : K}
    {v : Option P} (h : WordOK cfg (M x) w q) (hv : (M y).leafVal cfg k w = some v) : (M x).leafVal cfg k w = some v := by
  cases hp : w.ptr with
  | none => rw [leafVal_null hp] at hv ⊢; exact hv
  | some a =>
    rcases leafVal_leaf hv with h1 | h1
    · rw [hp] at h1; cases h1
    · obtain ⟨l, h2, -⟩ := h.of_data hp h1
      rw [leafVal_data hp h1 (H.data hxy hy h2)] at hv
      rw [leafVal_data hp h1 h2]
      exact hv

theorem Chain.locAt (H : Hist cfg A M n) {V : Loc → Nat} (hV : ∀ ℓ, V ℓ ≤ n) {p : List (Fin 16)} {ℓ : Loc}
    (hc : Chain M V p ℓ) : LocAt (M n) 0 ℓ p := by
  cases hc with
  | root => rfl
  | down p ℓ σ w a i hσ hl hp hd hc =>
    have hσn : σ ≤ n := Nat.le_trans hσ (hV _)
    obtain ⟨⟨c, hm⟩, -⟩ := hl.inner (H.inv σ hσn) hp hd
    obtain ⟨c', h1, -⟩ := H.inner hσn (Nat.le_refl _) hm
    exact ⟨c', p, h1, rfl, held_zero (by rw [h1]; simp)⟩

/-- What was in a location. -/
theorem Hist.at_read (H : Hist cfg A M n) {τ : Nat} (hτ : τ ≤ n) {ℓ : Loc} {p : List (Fin 16)} (hl : LocAt (M n) 0 ℓ p)
    {w : Word} (hr : (M τ).read ℓ = some w) : (M τ).At ℓ p w := by
  cases ℓ with
  | root => exact ⟨hl, by simpa [Mem.read] using hr⟩
  | slot a i =>
    obtain ⟨c, p', h1, rfl, -⟩ := hl
    simp only [Mem.read, Mem.deref] at hr
    split at hr
    · next cs path hd =>
      split at hd
      · cases hd
      · cases hr
        obtain ⟨c', h2, -⟩ := H.inner hτ (Nat.le_refl _) hd
        rw [h1] at h2; cases h2
        exact ⟨cs, _, hd, rfl, rfl⟩
    · cases hr

theorem hist_step (H : Hist cfg A M n) (hA : A (n + 1) = (M (n + 1)).abs cfg) (hi : MemInv cfg A (M (n + 1)))
    (he : Evo (M n) (M (n + 1)))
    (hs : ∀ a c p, (M n).mem a = some (.inner c p) → (M n).retired a = none →
      (M (n + 1)).retired a ≠ none → (M (n + 1)).mem a = some (.inner c p))
    (hb : ∀ a, (M n).mem a = none → (M (n + 1)).retired a = none) : Hist cfg A M (n + 1) where
  inv := by
    intro τ hτ
    by_cases e : τ = n + 1
    · subst e; exact hi
    · exact H.inv τ (by omega)
  abs := by
    intro τ hτ
    by_cases e : τ = n + 1
    · subst e; exact hA
    · exact H.abs τ (by omega)
  clock := by
    intro τ hτ
    by_cases e : τ = n + 1
    · subst e; rw [he.clock, H.clock n (Nat.le_refl _)]
    · exact H.clock τ (by omega)
  evo := by
    intro τ hτ
    by_cases e : τ = n
    · subst e; exact he
    · exact H.evo τ (by omega)
  still := by
    intro τ hτ
    by_cases e : τ = n
    · subst e; exact hs
    · exact H.still τ (by omega)
  born := by
    intro τ hτ
    by_cases e : τ = n
    · subst e; exact hb
    · exact H.born τ (by omega)

theorem hist_bump (H : Hist cfg A M n) (hA : A (n + 1) = (M (n + 1)).abs cfg) (hm : M (n + 1) = (M n).bump) :
    Hist cfg A M (n + 1) := by
  have h := H.inv n (Nat.le_refl _)
  refine hist_step H hA (by rw [hm]; exact h.bump) (by rw [hm]; exact Evo.bump _) ?_ ?_
  · intro a c p _ h1 h2
    rw [hm] at h2; exact absurd h1 h2
  · intro a h1
    rw [hm]; exact h.retired_none h1
end

/-! ### Storing steps -/

/-- What a storing step leaves. -/
def WNext (cfg : Config K P) (A : Nat → AMap K P) (m m' : Mem P) (weak : Bool) (c : Call K P) : Next K P → Prop
  | .goto pc ran => PCInv cfg A m' { c with
      inv := 0, pc := pc, calls := c.calls + (if ran then 1 else 0), ticks := c.ticks + 1 } ∧
      (lpOf cfg m weak c = none ∧ pc.taken = c.pc.taken ∨
       ∃ o p, lpOf cfg m weak c = some ⟨c.inv, o, .opt (some p)⟩ ∧ c.req = .op o ∧ pc.taken = some p)
  | .ret r refs => ∃ o ret, c.req = .op o ∧ r = .op ret ∧
      (∀ p ∈ ret.payloads, ∃ a ∈ refs, ∃ items, m'.mem a = some (.data items) ∧ p ∈ items) ∧
      (∀ a ∈ refs, m'.mem a ≠ none) ∧
      (match o with
        | .getOrInsert _ _ => c.calls ≤ 1 ∧ ((∃ p, ret = .eon (.new p)) → c.calls = 1)
        | _ => c.calls = 0) ∧
      ((∃ p, c.pc.taken = some p ∧ ret = .opt (some p)) ∨ lpOf cfg m weak c = some ⟨c.inv, o, ret⟩)
  | .fail _ => False

section
variable {cfg : Config K P} {A : Nat → AMap K P} {m : Mem P} {c : Call K P} {weak : Bool}

theorem lpOf_zero : lpOf cfg m weak { c with inv := 0 } = (lpOf cfg m weak c).map (fun lp => { lp with id := 0 }) := by
  simp only [lpOf]
  split
  · split
    · split <;> rfl
    · split <;> rfl
    · rfl
  · rfl

theorem lpOf_id {lp : LP K P} (h : lpOf cfg m weak c = some lp) : lp.id = c.inv ∧ c.req = .op lp.op := by
  simp only [lpOf] at h
  split at h
  · next o ho =>
    split at h
    · split at h
      · cases h; exact ⟨rfl, ho⟩
      · cases h
    · split at h
      · cases h; exact ⟨rfl, ho⟩
      · cases h
    · cases h
  · cases h

theorem taken_lp {p : P} (h : c.pc.taken = some p) : lpOf cfg m weak c = none := by
  cases hpc : c.pc <;> simp only [hpc, PC.taken] at h <;> first
    | (cases h; done)
    | (simp only [lpOf, hpc]; split <;> rfl)

theorem taken_req {p : P} (hi : PCInv cfg A m c) (h : c.pc.taken = some p) : ∃ o, c.req = .op o := by
  cases hpc : c.pc with
  | count =>
    simp only [PCInv, hpc] at hi
    obtain ⟨⟨k, hk⟩, -⟩ := hi
    exact ⟨_, hk⟩
  | prune parent child i acc k =>
    simp only [PCInv, hpc] at hi
    cases k with
    | clean deleted ref rest => obtain ⟨⟨⟨k, hk⟩, -⟩, -⟩ := hi.1; exact ⟨_, hk⟩
    | trav => rw [hpc] at h; cases h
    | rem => rw [hpc] at h; cases h
  | pruneCas parent child acc k =>
    simp only [PCInv, hpc] at hi
    cases k with
    | clean deleted ref rest => obtain ⟨⟨⟨k, hk⟩, -⟩, -⟩ := hi.1; exact ⟨_, hk⟩
    | trav => rw [hpc] at h; cases h
    | rem => rw [hpc] at h; cases h
  | _ => rw [hpc] at h; cases h

/-- A call whose step stores is a map operation. -/
theorem writes_req (hi : PCInv cfg A m c) (hw : c.pc.writes m weak = true) : ∃ o, c.req = .op o := by
  have tr : ∀ {mode st n}, TravReq cfg c.req mode st n → ∃ o, c.req = .op o := by
    intro mode st n h
    generalize c.req = r at h
    cases h <;> exact ⟨_, rfl⟩
  have cont : ∀ {k : Cont K P} {s n}, ContOK cfg m s c.req n k → ∃ o, c.req = .op o := by
    intro k s n h
    cases k with
    | clean deleted ref rest => obtain ⟨⟨⟨k, hk⟩, -⟩, -⟩ := h; exact ⟨_, hk⟩
    | trav => exact tr h.1
    | rem => exact ⟨_, h.1⟩
  cases hpc : c.pc with
  | travCas st hash mode shift cur parent node new kind =>
    simp only [PCInv, hpc] at hi
    obtain ⟨d, -, ht, -⟩ := hi
    exact tr ht.req
  | remCas key shift cur levels node new deleted =>
    simp only [PCInv, hpc] at hi
    exact ⟨_, hi.1⟩
  | prune parent child i acc k =>
    simp only [PCInv, hpc] at hi
    exact cont hi.1
  | pruneCas parent child acc k =>
    simp only [PCInv, hpc] at hi
    exact cont hi.1
  | _ =>
    rw [hpc] at hw
    simp only [PC.writes] at hw
    split at hw
    · cases hw
    · split at hw <;> cases hw

/-- A storing step that ends the call: an update, or one that has taken place. -/
theorem writes_ret (hw : c.pc.writes m weak = true) {o : Op K P} (hreq : c.req = .op o) {r : Ret P} {refs : List Nat}
    (hr : (tick cfg m weak c.pc).2 = .ret (.op r) refs) : lpOf cfg m weak c ≠ none ∨ ∃ p, c.pc.taken = some p := by
  cases hpc : c.pc with
  | travCas st hash mode shift cur parent node new kind =>
    left
    simp only [lpOf, hreq, hpc]
    rw [hpc] at hr
    rw [hr]
    simp
  | remCas key shift cur levels node new deleted =>
    left
    rw [hpc] at hw
    simp only [PC.writes, PC.access] at hw
    split at hw
    · cases hw
    · next w hrd =>
      have hsucc : w = node ∧ weak = false := by
        apply Classical.byContradiction
        intro h; simp [PC.stores, h] at hw
      simp [lpOf, hreq, hpc, hrd, hsucc]
  | prune parent child i acc k =>
    rw [hpc] at hr
    simp only [tick, tickPrune] at hr
    repeat' split at hr
    all_goals cases hr
  | pruneCas parent child acc k =>
    rw [hpc] at hr
    right
    have key : ∀ {pr : PruneResult}, afterPrune pr k = .ret (.op r) refs → ∃ p, (PC.pruneCas parent child acc k : PC K P).taken = some p := by
      intro pr h
      cases k with
      | clean deleted ref rest => exact ⟨_, rfl⟩
      | trav => cases h
      | rem => cases h
    simp only [tick, tickPruneCas] at hr
    split at hr
    · cases hr
    · split at hr
      · split at hr
        · exact key hr
        · exact key hr
      · cases hr
  | _ =>
    rw [hpc] at hw
    simp only [PC.writes] at hw
    split at hw
    · cases hw
    · split at hw <;> cases hw

/-- Everything about a storing step, but what it does to nodes. -/
theorem wTick (x : Ctx cfg A m 0) (hi : PCInv cfg A m { c with inv := 0 }) (hw : c.pc.writes m weak = true) :
    MemInv cfg A (tick cfg m weak c.pc).1.bump ∧ Evo m (tick cfg m weak c.pc).1.bump ∧
    (match lpOf cfg m weak c with
      | none => (tick cfg m weak c.pc).1.abs cfg = m.abs cfg
      | some lp => (m.abs cfg).apply cfg.key lp.op = ((tick cfg m weak c.pc).1.abs cfg, lp.ret)) ∧
    WNext cfg A m (tick cfg m weak c.pc).1.bump weak c (tick cfg m weak c.pc).2 := by
  obtain ⟨o, ho⟩ := writes_req (c := { c with inv := 0 }) hi hw
  have ho' : c.req = .op o := ho
  let c0 : Call K P := { c with inv := 0 }
  let W0 : Nat → Option (LP K P) := fun i =>
    if i = m.clock then lpOf cfg m weak c0
    else if i = 0 then c.pc.taken.map (fun p => ⟨0, o, .opt (some p)⟩) else none
  have hs : 0 < m.clock := x.hs
  have hW1 : W0 m.clock = lpOf cfg m weak c0 := by simp [W0]
  have hW0 : W0 0 = c.pc.taken.map (fun p => ⟨0, o, .opt (some p)⟩) := by
    have : ¬ 0 = m.clock := by omega
    simp [W0, this]
  have hlin : LinInv W0 m.clock c0 := by
    show (match c.pc.taken with | none => _ | some p => _)
    cases htk : c.pc.taken with
    | none =>
      simp only
      intro τ lp hτ hlp
      exfalso
      have h1 : ¬ τ = m.clock := by omega
      simp only [W0, h1, if_false, htk] at hlp
      split at hlp <;> cases hlp
    | some p =>
      simp only
      exact ⟨0, o, Nat.le_refl _, hs, ho, by rw [hW0, htk]; rfl⟩
  have T := tick_ok (c := c0) (weak := weak) x hi hlin hW1
  have hlp := T.lp
  rw [hW1] at hlp
  have hmap : lpOf cfg m weak c0 = (lpOf cfg m weak c).map (fun lp => { lp with id := 0 }) := lpOf_zero
  refine ⟨T.inv, T.evo, ?_, ?_⟩
  · rw [hmap] at hlp
    cases hl : lpOf cfg m weak c with
    | none => rw [hl] at hlp; exact hlp
    | some lp => rw [hl] at hlp; exact hlp.2.2
  · have hn := T.next
    have hclk : (tick cfg m weak c.pc).1.bump.clock = m.clock + 1 := T.evo.clock
    -- where an effect of call 0 comes from
    have src : ∀ τ o' ret, W0 τ = some ⟨0, o', ret⟩ →
        lpOf cfg m weak c = some ⟨c.inv, o', ret⟩ ∨ ∃ p, c.pc.taken = some p ∧ ret = .opt (some p) := by
      intro τ o' ret h
      by_cases e : τ = m.clock
      · subst e
        rw [hW1, hmap] at h
        obtain ⟨lp, h1, h2⟩ := Option.map_eq_some_iff.mp h
        have := lpOf_id h1
        obtain ⟨id, op, rt⟩ := lp
        simp only [LP.mk.injEq, true_and] at h2
        obtain ⟨rfl, rfl⟩ := h2
        simp only at this
        rw [← this.1]
        exact Or.inl h1
      · simp only [W0, e, if_false] at h
        split at h
        · obtain ⟨p, h1, h2⟩ := Option.map_eq_some_iff.mp h
          simp only [LP.mk.injEq, true_and] at h2
          exact Or.inr ⟨p, h1, h2.2.symm⟩
        · cases h
    change NextInv cfg A W0 _ c0 (tick cfg m weak c.pc).2 at hn
    generalize hg : (tick cfg m weak c.pc).2 = nx at hn
    cases nx with
    | fail f => exact hn
    | goto pc ran =>
      obtain ⟨h1, h2⟩ := hn
      refine ⟨h1, ?_⟩
      have h2' : match pc.taken with
        | none => ∀ τ lp, τ < (tick cfg m weak c.pc).1.bump.clock → W0 τ = some lp → lp.id ≠ 0
        | some p => ∃ τ o', 0 ≤ τ ∧ τ < (tick cfg m weak c.pc).1.bump.clock ∧ c.req = .op o' ∧
            W0 τ = some ⟨0, o', .opt (some p)⟩ := h2
      cases htk : pc.taken with
      | none =>
        rw [htk] at h2'
        simp only at h2'
        left
        constructor
        · cases hl : lpOf cfg m weak c with
          | none => rfl
          | some lp => exact absurd rfl (h2' m.clock _ (by rw [hclk]; omega) (by rw [hW1, hmap, hl]; rfl))
        · cases ht : c.pc.taken with
          | none => rfl
          | some p => exact absurd rfl (h2' 0 _ (by rw [hclk]; omega) (by rw [hW0, ht]; rfl))
      | some p =>
        rw [htk] at h2'
        simp only at h2'
        obtain ⟨τ, o', -, -, h3, h4⟩ := h2'
        rcases src τ o' _ h4 with h5 | ⟨p', h5, h6⟩
        · exact Or.inr ⟨o', p, h5, h3, rfl⟩
        · cases h6
          exact Or.inl ⟨taken_lp h5, h5.symm⟩
    | ret r refs =>
      simp only [NextInv, RetOK, c0, ho'] at hn
      obtain ⟨h1, ret, rfl, h2, h3, h4⟩ := hn
      refine ⟨o, ret, ho', rfl, h3, fun a ha => (h1 a ha).1, h4, ?_⟩
      rcases h2 with ⟨τ, -, -, h5⟩ | ⟨h5, -⟩
      · rcases src τ o _ h5 with h6 | h6
        · exact Or.inr h6
        · exact Or.inl h6
      · exfalso
        rcases writes_ret hw ho' hg with h6 | ⟨p, h6⟩
        · cases hl : lpOf cfg m weak c with
          | none => exact h6 hl
          | some lp => exact absurd rfl (h5 m.clock _ (by rw [hclk]; omega) (by rw [hW1, hmap, hl]; rfl))
        · exact absurd rfl (h5 0 _ (by rw [hclk]; omega) (by rw [hW0, h6]; rfl))

/-- A step that stores nothing updates nothing. -/
theorem lpOf_quiet (hq : c.pc.writes m weak = false)
    : lpOf cfg m weak c = none := by
  cases hpc : c.pc with
  | travCas st hash mode shift cur parent node new kind =>
    have : ∀ r refs, (tick cfg m weak c.pc).2 ≠ .ret (.op r) refs := by
      intro r refs h
      rw [hpc] at h hq
      simp only [tick, tickTravCas] at h
      split at h
      · cases h
      · next w hr =>
        have hn : ¬ (w = node ∧ weak = false) := by
          intro e
          simp [PC.writes, PC.access, PC.stores, hr, e] at hq
        simp only [hn, if_false] at h
        cases h
    simp only [lpOf, hpc]
    rw [← hpc]
    split
    · split
      · next r refs h => exact absurd h (this _ _)
      · rfl
    · rfl
  | remCas key shift cur levels node new deleted =>
    simp only [lpOf, hpc]
    split
    · split
      · next h =>
        rw [hpc] at hq
        simp [PC.writes, PC.access, PC.stores, h] at hq
      · rfl
    · rfl
  | _ => simp only [lpOf, hpc]; split <;> rfl
end
end Contrie
