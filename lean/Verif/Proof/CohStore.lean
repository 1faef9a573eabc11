import Verif.Proof.CohTick
import Verif.Proof.CohCmp
/-
Steps that store: what they do to the memory, and what the session knows about its location afterwards.
-/
set_option linter.unusedSectionVars false
namespace Contrie
variable {K P : Type} [DecidableEq K]
variable {cfg : Config K P} {A : Nat → AMap K P} {m : Mem P} {ℓ : Loc} {c : Call K P} {weak : Bool}

theorem writes_loads {pc : PC K P} {o : LoadOrd} (ha : pc.access .code = some (ℓ, o)) {w : Word} (hr : m.read ℓ = some w) :
    pc.writes m weak = (pc.stores .code weak w).isSome := by
  simp [PC.writes, ha, hr]

/-- A storing step marks a cell, or swings a pointer. -/
theorem tick_swung (x : Ctx cfg A m c.inv) (hi : PCInv cfg A m c) {o : LoadOrd}
    (ha : c.pc.access .code = some (ℓ, o)) (hw : c.pc.writes m weak = true) :
    (lpOf cfg m weak c = none ∧ (tick cfg m weak c.pc).1.retired = m.retired ∧
      ∀ a, m.mem a = none → (tick cfg m weak c.pc).1.mem a = none) ∨
    ∃ q w0 w' new ret, m.At ℓ q w0 ∧ w0.cond = false ∧ Swung m (tick cfg m weak c.pc).1.bump ℓ w' new ret ∧
      (∀ a, ret = some a → w0.ptr = some a) ∧
      (w'.isLeaf ∨ lpOf cfg m weak c = none ∧ ∀ a, ret = some a → w0.data = false) := by
  have hnn := x.h.fresh _ (Nat.le_refl _)
  cases hpc : c.pc with
  | get => rw [hpc] at hw ha; simp [PC.writes, ha, PC.stores] at hw; split at hw <;> cases hw
  | isEmpty => rw [hpc] at hw ha; simp [PC.writes, ha, PC.stores] at hw; split at hw <;> cases hw
  | iterNew => rw [hpc] at hw ha; simp [PC.writes, ha, PC.stores] at hw; split at hw <;> cases hw
  | iterNext => rw [hpc] at hw ha; simp [PC.writes, ha, PC.stores] at hw; split at hw <;> cases hw
  | trav => rw [hpc] at hw ha; simp [PC.writes, ha, PC.stores] at hw; split at hw <;> cases hw
  | rem => rw [hpc] at hw ha; simp [PC.writes, ha, PC.stores] at hw; split at hw <;> cases hw
  | count => rw [hpc] at hw ha; simp [PC.writes, ha, PC.stores] at hw; split at hw <;> cases hw
  | travCas st hash mode shift cur parent node new kind =>
    right
    rw [hpc] at ha hw
    cases ha
    simp only [PCInv, hpc] at hi
    obtain ⟨d, rfl, ht, hcas⟩ := hi
    obtain ⟨w, hr, hat, -, -⟩ := x.read ht.loc
    rw [writes_loads rfl hr] at hw
    have hsucc : w = node ∧ weak = false := by
      apply Classical.byContradiction
      intro h; simp [PC.stores, h] at hw
    obtain ⟨rfl, rfl⟩ := hsucc
    have hsw := fun w' new ret => swing_swung hat hnn w' new ret
    cases hcas with
    | fresh p hst =>
      refine ⟨_, _, ⟨some m.next, false, true⟩, some (.data [p]), none, hat, rfl, ?_, (by intro a e; cases e), Or.inl (Or.inr rfl)⟩
      have : (tick cfg m false (.travCas st hash mode (LEVEL_BITS * d) ℓ parent Word.null (.data [p]) .fresh)).1 =
          m.swing ℓ ⟨some m.next, false, true⟩ (some (.data [p])) none := by
        cases mode <;> simp [tick, tickTravCas, hr, finishTrav] <;> rfl
      rw [this]; exact hsw _ _ _
    | split a d0 hh hm hd16 hne =>
      refine ⟨_, _, ⟨some m.next, false, false⟩, some (Node.inner (upd (fun _ => Word.null)
        (bitsAt (cfg.hash (cfg.key d0)) (LEVEL_BITS * d)) ⟨some a, false, true⟩) (pre hash d)), none, hat, rfl, ?_, (by intro a e; cases e), Or.inr ⟨?_, (by intro a e; cases e)⟩⟩
      · have : (tick cfg m false (.travCas st hash mode (LEVEL_BITS * d) ℓ parent ⟨some a, false, true⟩ (Node.inner (upd (fun _ => Word.null)
        (bitsAt (cfg.hash (cfg.key d0)) (LEVEL_BITS * d)) ⟨some a, false, true⟩) (pre hash d)) .split)).1 =
          m.swing ℓ ⟨some m.next, false, false⟩ (some (Node.inner (upd (fun _ => Word.null)
        (bitsAt (cfg.hash (cfg.key d0)) (LEVEL_BITS * d)) ⟨some a, false, true⟩) (pre hash d))) none := by
          simp [tick, tickTravCas, hr] ; rfl
        rw [this]; exact hsw _ _ _
      · simp only [lpOf, hpc, tick, tickTravCas, hr]
        simp
        split <;> rfl
    | replace a p items hst hh hm hdok hdeep hmode =>
      refine ⟨_, _, ⟨some m.next, false, true⟩, some (.data (items.filter (fun l => decide (cfg.key l ≠ st.key cfg)) ++ [p])),
        some a, hat, rfl, ?_, (by intro a e; cases e; rfl), Or.inl (Or.inr rfl)⟩
      have : (tick cfg m false (.travCas st hash mode (LEVEL_BITS * d) ℓ parent ⟨some a, false, true⟩
          (.data (items.filter (fun l => decide (cfg.key l ≠ st.key cfg)) ++ [p]))
          (.replace (items.find? (fun l => decide (cfg.key l = st.key cfg)))))).1 =
          m.swing ℓ ⟨some m.next, false, true⟩ (some (.data (items.filter (fun l => decide (cfg.key l ≠ st.key cfg)) ++ [p]))) (some a) := by
        cases hf : items.find? (fun l => decide (cfg.key l = st.key cfg)) <;> cases mode <;>
          simp [tick, tickTravCas, hr, finishTrav] <;> rfl
      rw [this]; exact hsw _ _ _
  | remCas key shift cur levels node new deleted =>
    right
    rw [hpc] at ha hw
    cases ha
    simp only [PCInv, hpc] at hi
    obtain ⟨hreq, hcalls, d, a, items, rfl, ht, rfl, hh, hm, hdok, hnew, hf⟩ := hi
    obtain ⟨w, hr, hat, -, -⟩ := x.read ht.loc
    rw [writes_loads rfl hr] at hw
    have hsucc : w = ⟨some a, false, true⟩ ∧ weak = false := by
      apply Classical.byContradiction
      intro h; simp [PC.stores, h] at hw
    obtain ⟨rfl, rfl⟩ := hsucc
    have hsw := fun w' new ret => swing_swung hat hnn w' new ret
    cases hn : new with
    | nil =>
      refine ⟨_, _, Word.null, none, some a, hat, rfl, ?_, (by intro a e; cases e; rfl), Or.inl isLeaf_null⟩
      have : (tick cfg m false (.remCas key (LEVEL_BITS * d) ℓ levels ⟨some a, false, true⟩ [] deleted)).1 =
          m.swing ℓ Word.null none (some a) := by
        simp [tick, tickRemCas, hr]; rfl
      rw [this]; exact hsw _ _ _
    | cons y rest =>
      refine ⟨_, _, ⟨some m.next, false, true⟩, some (.data (y :: rest)), some a, hat, rfl, ?_, (by intro a e; cases e; rfl),
        Or.inl (Or.inr rfl)⟩
      have : (tick cfg m false (.remCas key (LEVEL_BITS * d) ℓ levels ⟨some a, false, true⟩ (y :: rest) deleted)).1 =
          m.swing ℓ ⟨some m.next, false, true⟩ (some (.data (y :: rest))) (some a) := by
        simp [tick, tickRemCas, hr]; rfl
      rw [this]; exact hsw _ _ _
  | prune parent child i acc k =>
    left
    refine ⟨by simp only [lpOf, hpc]; split <;> rfl, ?_⟩
    simp only [tick, tickPrune]
    split
    · exact ⟨rfl, fun _ h => h⟩
    · split
      · exact ⟨rfl, fun _ h => h⟩
      · rename_i a _ _ gc _
        obtain ⟨-, -, h3, -, -, -, h7⟩ := write_frame m gc.condemn (.slot a i)
        have : (m.write gc.condemn (.slot a i)).retired = m.retired ∧
          ∀ b, m.mem b = none → (m.write gc.condemn (.slot a i)).mem b = none := ⟨h3, fun b hb => (h7 b).mpr hb⟩
        split
        · exact this
        · split
          · exact this
          · split
            · exact this
            · exact this
  | pruneCas parent child acc k =>
    right
    rw [hpc] at ha hw
    cases ha
    simp only [PCInv, hpc] at hi
    obtain ⟨hk, a, cs, q, rfl, hm, hh, hloc, hacc⟩ := hi
    obtain ⟨w, hr, hat, -, -⟩ := x.read hloc
    rw [writes_loads rfl hr] at hw
    have hsucc : w = ⟨some a, false, false⟩ := by
      apply Classical.byContradiction
      intro h; simp [PC.stores, h] at hw
    subst hsucc
    have hsw := fun w' new ret => swing_swung hat hnn w' new ret
    have hderef : m.deref a = some (.inner cs q) := by simp [Mem.deref, x.hfree a hh, hm]
    have hlp : lpOf cfg m weak c = none := by simp only [lpOf, hpc]; split <;> rfl
    cases hd : acc.decide with
    | mk ins res =>
      cases ins with
      | word w' =>
        refine ⟨_, _, w', none, some a, hat, rfl, ?_, (by intro a e; cases e; rfl), Or.inr ⟨hlp, fun _ _ => rfl⟩⟩
        have : (tick cfg m weak (.pruneCas ℓ ⟨some a, false, false⟩ acc k)).1 = m.swing ℓ w' none (some a) := by
          simp [tick, tickPruneCas, hr, hderef, hd]; rfl
        rw [this]; exact hsw _ _ _
      | copy cells =>
        refine ⟨_, _, ⟨some m.next, false, false⟩, some (.inner cells q), some a, hat, rfl, ?_, (by intro a e; cases e; rfl),
          Or.inr ⟨hlp, fun _ _ => rfl⟩⟩
        have : (tick cfg m weak (.pruneCas ℓ ⟨some a, false, false⟩ acc k)).1 =
            m.swing ℓ ⟨some m.next, false, false⟩ (some (.inner cells q)) (some a) := by
          simp [tick, tickPruneCas, hr, hderef, hd]; rfl
        rw [this]; exact hsw _ _ _

/-- What a step does to nodes it retires, and where it leaves its location. -/
structure Stored (cfg : Config K P) (m m' : Mem P) (ℓ : Loc) (lp : Prop) : Prop where
  still : ∀ a c p, m.mem a = some (.inner c p) → m.retired a = none → m'.retired a ≠ none → m'.mem a = some (.inner c p)
  born : ∀ a, m.mem a = none → m'.retired a = none
  /-- an update leaves a leaf -/
  leaf : lp → ∃ q w', LocAt m 0 ℓ q ∧ LiveAt m' ℓ q w' ∧ w'.isLeaf
  /-- a retired node was found in the location -/
  gone : ∀ a, m.retired a = none → m'.retired a ≠ none → ∃ q w' nd, LocAt m 0 ℓ q ∧ LiveAt m' ℓ q w' ∧ m.mem a = some nd ∧
    ((∃ c, nd = .inner c q) ∨ w'.isLeaf ∧ ∃ l, nd = .data l ∧ DataOK cfg l q)

theorem MemInv.retired_none (h : MemInv cfg A m) {a : Nat} (hm : m.mem a = none) : m.retired a = none := by
  cases hr : m.retired a with
  | none => rfl
  | some τ => exact absurd hm (h.retTime a τ hr).2

theorem Mem.At.locAt {q : List (Fin 16)} {w : Word} (h : m.At ℓ q w) : LocAt m 0 ℓ q := by
  cases ℓ with
  | root => exact h.1
  | slot a i =>
    obtain ⟨c, p, h1, h2, -⟩ := h
    exact ⟨c, p, h1, h2, held_zero (by rw [h1]; simp)⟩

theorem Mem.At.wordOK (h : MemInv cfg A m) {q : List (Fin 16)} {w : Word} (hat : m.At ℓ q w) : WordOK cfg m w q := by
  cases ℓ with
  | root => obtain ⟨rfl, rfl⟩ := hat; exact h.rootOK
  | slot a i =>
    obtain ⟨c, p, h1, rfl, rfl⟩ := hat
    exact (h.nodeOK a c p h1).2 i

theorem Swung.live {m' : Mem P} {q : List (Fin 16)} {w0 w' : Word} {new : Option (Node P)} {ret : Option Nat}
    (hs : Swung m m' ℓ w' new ret) (h : MemInv cfg A m)
    (hat : m.At ℓ q w0) (hc : w0.cond = false) (hret : ∀ a, ret = some a → w0.ptr = some a) :
    LiveAt m' ℓ q w' ∧ ∀ a i, ret = some a → ℓ ≠ .slot a i := by
  have hne : ∀ a i, ret = some a → ℓ ≠ .slot a i := by
    intro a i hr e
    subst e
    have hok := hat.wordOK h
    obtain ⟨c, p, h1, rfl, rfl⟩ := hat
    cases hd : (c i).data with
    | true => obtain ⟨l, h2, -⟩ := hok.of_data (hret a hr) hd; rw [h1] at h2; cases h2
    | false =>
      obtain ⟨c', h2⟩ := hok.of_inner (hret a hr) hd
      rw [h1] at h2
      injection h2 with h2
      injection h2 with h3 h4
      have := congrArg List.length h4
      simp at this
  refine ⟨?_, hne⟩
  cases ℓ with
  | root =>
    refine ⟨⟨hat.1, ?_⟩, fun _ _ e => by cases e⟩
    rw [hs.root]; simp
  | slot a i =>
    obtain ⟨c, p, h1, rfl, rfl⟩ := hat
    refine ⟨⟨_, p, hs.node a c p h1, rfl, by simp⟩, ?_⟩
    intro a' i' e
    cases e
    rw [hs.retired]
    have : ¬ ret = some a := fun e => hne a i e rfl
    simp only [this, if_false]
    cases hr : m.retired a with
    | none => rfl
    | some τ =>
      have := h.frozen a c p τ h1 hr i
      rw [hc] at this; cases this

/-- Everything about what a storing step does to the memory. -/
theorem tick_stored (x : Ctx cfg A m c.inv) (hi : PCInv cfg A m c) {o : LoadOrd}
    (ha : c.pc.access .code = some (ℓ, o)) (hw : c.pc.writes m weak = true) :
    Stored cfg m (tick cfg m weak c.pc).1.bump ℓ (lpOf cfg m weak c ≠ none) := by
  rcases tick_swung x hi ha hw with ⟨h1, h2, h3⟩ | ⟨q, w0, w', new, ret, hat, hc, hs, hret, hleaf⟩
  · have hr : (tick cfg m weak c.pc).1.bump.retired = m.retired := h2
    refine ⟨?_, ?_, fun h => absurd h1 h, ?_⟩
    · intro a c p _ h4 h5; rw [hr] at h5; exact absurd h4 h5
    · intro a h4; rw [hr]; exact x.h.retired_none h4
    · intro a h4 h5; rw [hr] at h5; exact absurd h4 h5
  · obtain ⟨hl, hne⟩ := hs.live x.h hat hc hret
    have hgone : ∀ a, m.retired a = none → (tick cfg m weak c.pc).1.bump.retired a ≠ none → ret = some a := by
      intro a h1 h2
      apply Classical.byContradiction
      intro h3
      rw [hs.retired] at h2
      simp only [h3, if_false] at h2
      exact h2 h1
    refine ⟨?_, ?_, ?_, ?_⟩
    · intro a cs p h1 h2 h3
      have h4 := hgone a h2 h3
      rw [hs.node a cs p h1]
      have : ∀ j, ¬ ℓ = .slot a j := fun j => hne a j h4
      simp [this]
    · intro a h1
      rw [hs.retired]
      split
      · next e =>
        have h2 := hret a e
        have hok := hat.wordOK x.h
        exfalso
        cases hd : w0.data with
        | true => obtain ⟨l, h3, -⟩ := hok.of_data h2 hd; rw [h1] at h3; cases h3
        | false => obtain ⟨l, h3⟩ := hok.of_inner h2 hd; rw [h1] at h3; cases h3
      · exact x.h.retired_none h1
    · intro hlp
      rcases hleaf with h | ⟨h, -⟩
      · exact ⟨q, w', hat.locAt, hl, h⟩
      · exact absurd h hlp
    · intro a h1 h2
      have h3 := hgone a h1 h2
      have hok := hat.wordOK x.h
      cases hd : w0.data with
      | true =>
        obtain ⟨l, h4, h5⟩ := hok.of_data (hret a h3) hd
        refine ⟨q, w', _, hat.locAt, hl, h4, Or.inr ⟨?_, l, rfl, h5⟩⟩
        rcases hleaf with h | ⟨-, h⟩
        · exact h
        · rw [h a h3] at hd; cases hd
      | false =>
        obtain ⟨cs, h4⟩ := hok.of_inner (hret a h3) hd
        exact ⟨q, w', _, hat.locAt, hl, h4, Or.inl ⟨cs, rfl⟩⟩

end Contrie
