import Verif.Proof.WildTick
import Verif.Proof.CohStore
/-
Steps that store, with misbehaving user code; cf. `Verif/Proof/CohStore.lean`.
-/
set_option linter.unusedSectionVars false
namespace Contrie
variable {K P : Type} [DecidableEq K]
open scoped List

section
variable {m m' : Mem P} {ℓ : Loc} {q : List (Fin 16)} {w0 w' : Word} {new : Option (Node P)} {ret : Option Nat}

/-- What is below the new word was below the old one, at most one level away. -/
def Near (m m' : Mem P) (w0 w' : Word) : Prop := ∀ r w b, m'.follow w' r = some w → w.ptr = some b →
  b = m.next ∨ ∃ r0 w1, m.follow w0 r0 = some w1 ∧ w1.ptr = some b ∧ (r = r0 ∨ (∃ i, r = r0 ++ [i]) ∨ ∃ i, r0 = r ++ [i])

theorem HSwung.moves (hs : Swung m m' ℓ w' new ret) (h : HMemInv m) (hat : m.At ℓ q w0) (hc : w0.cond = false)
    (hc' : w'.cond = false) (hn : Near m m' w0 w') : Moves m m' := by
  intro a qa qa' h1 h2
  have hmem := h1.mem h
  obtain ⟨wa, h3, h4⟩ := h1
  obtain ⟨wb, h5, h6⟩ := h2
  by_cases hq : q <+: qa'
  · obtain ⟨t, rfl⟩ := hq
    rw [follow_append' (HSwung.follow_root_at hs h hat hc hc')] at h5
    rcases hn t wb a h5 h6 with rfl | ⟨r0, w1, h7, h8, h9⟩
    · exact absurd (h.fresh _ (Nat.le_refl _)) hmem
    · have := h.path_unique (r := q ++ r0) h3 (by rw [follow_append' (h.at_follow hat hc)]; exact h7) h4 h8
      subst this
      rcases h9 with rfl | ⟨i, rfl⟩ | ⟨i, rfl⟩
      · exact Or.inl rfl
      · exact Or.inr (Or.inl ⟨i, by simp⟩)
      · exact Or.inr (Or.inr ⟨i, by simp⟩)
  · rw [HSwung.follow_root_frame hs h hat hq] at h5
    exact Or.inl (h.path_unique h5 h3 h6 h4)

theorem Near.leaf (hl : w'.isLeaf) (hp : ∀ b, w'.ptr = some b → b = m.next) : Near m m' w0 w' := by
  intro r w b hf hb
  obtain ⟨rfl, rfl⟩ := hl.follow hf
  exact Or.inl (hp b (by simpa using hb))

theorem Near.split {i : Fin 16} (hl : w0.isLeaf) (hm : m'.mem m.next = some (.inner (upd (fun _ => Word.null) i w0) q)) :
    Near m m' w0 ⟨some m.next, false, false⟩ := by
  intro r w b hf hb
  have hcw : m'.cellsOf ⟨some m.next, false, false⟩ = some (upd (fun _ => Word.null) i w0) := cellsOf_inner rfl rfl hm
  cases r with
  | nil => simp [Mem.follow] at hf; subst hf; simp at hb; exact Or.inl hb.symm
  | cons j r =>
    simp only [Mem.follow, hcw] at hf
    by_cases hj : j = i
    · subst hj
      rw [upd_same] at hf
      obtain ⟨rfl, rfl⟩ := hl.follow hf
      exact Or.inr ⟨[], w0.erase, rfl, hb, Or.inr (Or.inl ⟨j, rfl⟩)⟩
    · rw [upd_other _ _ hj] at hf
      obtain ⟨rfl, rfl⟩ := isLeaf_null.follow hf
      simp at hb

theorem Near.pruned (h : HMemInv m) (hat : m.At ℓ q w0) {a : Nat} (hp : w0.ptr = some a) (hd : w0.data = false)
    {c : Fin 16 → Word} (hm : m.mem a = some (.inner c q)) (hok : PruneOK m q c w' new)
    (hs : Swung m m' ℓ w' new ret) : Near m m' w0 w' := by
  have hcw : m.cellsOf w0 = some c := cellsOf_inner hp hd hm
  have hnn : m.mem m.next = none := h.fresh _ (Nat.le_refl _)
  cases hok with
  | null hn => exact Near.leaf isLeaf_null (by intro b e; cases e)
  | single i b d hpi hdi hmb hn =>
    intro r w b' hf hb
    have hli' : (c i).erase.isLeaf := Or.inr hdi
    obtain ⟨rfl, rfl⟩ := hli'.follow hf
    refine Or.inr ⟨[i], (c i).erase, by simp [Mem.follow, hcw], by simpa using hb, Or.inr (Or.inr ⟨i, rfl⟩)⟩
  | copy =>
    have hnm : m'.mem m.next = some (.inner (fun i => (c i).erase) q) := by
      rw [hs.fresh _ hnn]; simp
    have hcw' : m'.cellsOf ⟨some m.next, false, false⟩ = some (fun i => (c i).erase) := cellsOf_inner rfl rfl hnm
    intro r w b hf hb
    cases r with
    | nil => simp [Mem.follow] at hf; subst hf; simp at hb; exact Or.inl hb.symm
    | cons j r =>
      simp only [Mem.follow, hcw'] at hf
      refine Or.inr ⟨j :: r, w, ?_, hb, Or.inl rfl⟩
      simp only [Mem.follow, hcw]
      have this : m'.follow (c j).erase r = m.follow (c j) r := by
        rw [follow_congr (w' := c j) (by simp)]
        exact HSwung.follow_frame hs h hat ((h.nodeOK a c q hm).2 j) (by simp)
      rw [← this]; exact hf
end

variable {m : Mem P} {ℓ : Loc} {pc : PC K P} {weak : Bool}

/-- A storing step marks a cell, or swings a pointer. -/
theorem hTick_swung (o : Answers P) {s n : Nat} (x : HCtx m s) (hi : HPCInv m s n pc) {od : LoadOrd}
    (ha : pc.access .code = some (ℓ, od)) (hw : pc.writes m weak = true) :
    ((hTick o m weak pc).1.retired = m.retired ∧ (∀ a, m.mem a = none → (hTick o m weak pc).1.mem a = none) ∧
      ∀ q, (hTick o m weak pc).1.follow (hTick o m weak pc).1.root q = m.follow m.root q) ∨
    ∃ q w0 w' new ret, m.At ℓ q w0 ∧ w0.cond = false ∧ w'.cond = false ∧ Swung m (hTick o m weak pc).1.bump ℓ w' new ret ∧
      (∀ a, ret = some a → w0.ptr = some a) ∧ Near m (hTick o m weak pc).1.bump w0 w' := by
  have hnn := x.h.fresh _ (Nat.le_refl _)
  cases pc with
  | get => simp [PC.writes, ha, PC.stores] at hw; split at hw <;> cases hw
  | isEmpty => simp [PC.writes, ha, PC.stores] at hw; split at hw <;> cases hw
  | iterNew => simp [PC.writes, ha, PC.stores] at hw; split at hw <;> cases hw
  | iterNext => simp [PC.writes, ha, PC.stores] at hw; split at hw <;> cases hw
  | trav => simp [PC.writes, ha, PC.stores] at hw; split at hw <;> cases hw
  | rem => simp [PC.writes, ha, PC.stores] at hw; split at hw <;> cases hw
  | count => simp [PC.writes, ha, PC.stores] at hw; split at hw <;> cases hw
  | travCas st hash mode shift cur parent node new kind =>
    right
    cases ha
    obtain ⟨d, rfl, ht, hcas⟩ := hi
    obtain ⟨w, hr, hat, -, -⟩ := x.read ht.loc
    rw [writes_loads rfl hr] at hw
    have hsucc : w = node ∧ weak = false := by
      apply Classical.byContradiction
      intro h; simp [PC.stores, h] at hw
    obtain ⟨rfl, rfl⟩ := hsucc
    have hsw := fun w' new ret => swing_swung hat hnn w' new ret
    cases hcas with
    | fresh p q hst =>
      have : (hTick o m false (.travCas st hash mode (LEVEL_BITS * d) ℓ parent Word.null (.data [p]) .fresh)).1 =
          m.swing ℓ ⟨some m.next, false, true⟩ (some (.data [p])) none := by
        cases mode <;> simp [hTick, tickTravCas, hr, finishTrav] <;> rfl
      rw [this]
      exact ⟨_, _, ⟨some m.next, false, true⟩, some (.data [p]), none, hat, rfl, rfl, hsw _ _ _, (by intro a e; cases e),
        Near.leaf (Or.inr rfl) (by intro b e; cases e; rfl)⟩
    | split a i hh hd16 =>
      have : (hTick o m false (.travCas st hash mode (LEVEL_BITS * d) ℓ parent ⟨some a, false, true⟩ (Node.inner (upd (fun _ => Word.null)
        i ⟨some a, false, true⟩) (pre hash d)) .split)).1 =
          m.swing ℓ ⟨some m.next, false, false⟩ (some (Node.inner (upd (fun _ => Word.null)
        i ⟨some a, false, true⟩) (pre hash d))) none := by
          simp [hTick, tickTravCas, hr] ; rfl
      rw [this]
      refine ⟨_, _, ⟨some m.next, false, false⟩, _, none, hat, rfl, rfl, hsw _ _ _, (by intro a e; cases e),
        Near.split (i := i) (q := pre hash d) (Or.inr rfl) ?_⟩
      rw [(hsw _ _ _).fresh _ hnn]; simp
    | replace a p q items new found hst hh hm hfound =>
      have : (hTick o m false (.travCas st hash mode (LEVEL_BITS * d) ℓ parent ⟨some a, false, true⟩
          (.data (new ++ [p])) (.replace found))).1 =
          m.swing ℓ ⟨some m.next, false, true⟩ (some (.data (new ++ [p]))) (some a) := by
        cases found <;> cases mode <;>
          simp [hTick, tickTravCas, hr, finishTrav] <;> rfl
      rw [this]
      exact ⟨_, _, ⟨some m.next, false, true⟩, _, some a, hat, rfl, rfl, hsw _ _ _, (by intro a e; cases e; rfl),
        Near.leaf (Or.inr rfl) (by intro b e; cases e; rfl)⟩
  | remCas key shift cur levels node new deleted =>
    right
    cases ha
    obtain ⟨d, a, items, rfl, ht, rfl, hh, hm, hdel⟩ := hi
    obtain ⟨q, hloc, -⟩ := ht.loc
    obtain ⟨w, hr, hat, -, -⟩ := x.read hloc
    rw [writes_loads rfl hr] at hw
    have hsucc : w = ⟨some a, false, true⟩ ∧ weak = false := by
      apply Classical.byContradiction
      intro h; simp [PC.stores, h] at hw
    obtain ⟨rfl, rfl⟩ := hsucc
    have hsw := fun w' new ret => swing_swung hat hnn w' new ret
    cases hn : new with
    | nil =>
      have : (hTick o m false (.remCas key (LEVEL_BITS * d) ℓ levels ⟨some a, false, true⟩ [] deleted)).1 =
          m.swing ℓ Word.null none (some a) := by
        simp [hTick, tickRemCas, hr]; rfl
      rw [this]
      exact ⟨_, _, Word.null, none, some a, hat, rfl, rfl, hsw _ _ _, (by intro a e; cases e; rfl),
        Near.leaf isLeaf_null (by intro b e; cases e)⟩
    | cons y rest =>
      have : (hTick o m false (.remCas key (LEVEL_BITS * d) ℓ levels ⟨some a, false, true⟩ (y :: rest) deleted)).1 =
          m.swing ℓ ⟨some m.next, false, true⟩ (some (.data (y :: rest))) (some a) := by
        simp [hTick, tickRemCas, hr]; rfl
      rw [this]
      exact ⟨_, _, ⟨some m.next, false, true⟩, some (.data (y :: rest)), some a, hat, rfl, rfl, hsw _ _ _,
        (by intro a e; cases e; rfl), Near.leaf (Or.inr rfl) (by intro b e; cases e; rfl)⟩
  | prune parent child i acc k =>
    left
    obtain ⟨hk, a, cs, q, rfl, hm, hh, hloc, hacc⟩ := hi
    obtain ⟨w, hr, hat, -, -⟩ := x.read (loc := .slot a i) (q := q ++ [i]) ⟨cs, q, hm, rfl, hh⟩
    obtain ⟨cs', q', hm', -, rfl⟩ := hat
    rw [hm] at hm'; cases hm'
    have key : (hTick o m weak (.prune parent ⟨some a, false, false⟩ i acc k)).1 = m.write (cs i).condemn (.slot a i) := by
      simp only [hTick, tickPrune, hr]
      split
      · rfl
      · split <;> rfl
    rw [key]
    obtain ⟨-, -, h3, -, -, -, h7⟩ := write_frame m (cs i).condemn (.slot a i)
    refine ⟨h3, fun b hb => (h7 b).mpr hb, ?_⟩
    intro q'
    have hroot : (m.write (cs i).condemn (.slot a i)).root = m.root := by rw [write_condemn i hm]
    rw [hroot]
    exact ((sameShape_condemn i hm).follow rfl q').symm
  | pruneCas parent child acc k =>
    right
    cases ha
    obtain ⟨hk, a, cs, q, rfl, hm, hh, hloc, hacc⟩ := hi
    obtain ⟨w, hr, hat, -, -⟩ := x.read hloc
    rw [writes_loads rfl hr] at hw
    have hsucc : w = ⟨some a, false, false⟩ := by
      apply Classical.byContradiction
      intro h; simp [PC.stores, h] at hw
    subst hsucc
    have hsw := fun w' new ret => swing_swung hat hnn w' new ret
    have hderef : m.deref a = some (.inner cs q) := by simp [Mem.deref, x.hfree a hh, hm]
    have hdec := PAcc.decide_ok hacc q
    cases hd : acc.decide with
    | mk ins res =>
      rw [hd] at hdec
      cases ins with
      | word w' =>
        simp only at hdec
        have : (hTick o m weak (.pruneCas ℓ ⟨some a, false, false⟩ acc k)).1 = m.swing ℓ w' none (some a) := by
          simp [hTick, tickPruneCas, hr, hderef, hd]; rfl
        rw [this]
        refine ⟨_, _, w', none, some a, hat, rfl, ?_, hsw _ _ _, (by intro a e; cases e; rfl),
          Near.pruned x.h hat rfl rfl hm hdec (hsw _ _ _)⟩
        cases hdec <;> rfl
      | copy cells =>
        simp only at hdec
        have : (hTick o m weak (.pruneCas ℓ ⟨some a, false, false⟩ acc k)).1 =
            m.swing ℓ ⟨some m.next, false, false⟩ (some (.inner cells q)) (some a) := by
          simp [hTick, tickPruneCas, hr, hderef, hd]; rfl
        rw [this]
        exact ⟨_, _, ⟨some m.next, false, false⟩, some (.inner cells q), some a, hat, rfl, rfl, hsw _ _ _,
          (by intro a e; cases e; rfl), Near.pruned x.h hat rfl rfl hm hdec (hsw _ _ _)⟩

/-- What a step does to nodes. -/
structure HStored (m m' : Mem P) (ℓ : Loc) : Prop where
  still : ∀ a c p, m.mem a = some (.inner c p) → m.retired a = none → m'.retired a ≠ none → m'.mem a = some (.inner c p)
  born : ∀ a, m.mem a = none → m'.retired a = none
  moves : Moves m m'
  /-- a retired node was found in the location -/
  gone : ∀ a, m.retired a = none → m'.retired a ≠ none → ∃ q w', LocAt m 0 ℓ q ∧ LiveAt m' ℓ q w' ∧ LinkedAt m q a

theorem HMemInv.retired_none (h : HMemInv m) {a : Nat} (hm : m.mem a = none) : m.retired a = none := by
  cases hr : m.retired a with
  | none => rfl
  | some τ => exact absurd hm (h.retTime a τ hr).2

theorem HSwung.live {m' : Mem P} {q : List (Fin 16)} {w0 w' : Word} {new : Option (Node P)} {ret : Option Nat}
    (hs : Swung m m' ℓ w' new ret) (h : HMemInv m)
    (hat : m.At ℓ q w0) (hc : w0.cond = false) (hret : ∀ a, ret = some a → w0.ptr = some a) :
    LiveAt m' ℓ q w' ∧ ∀ a i, ret = some a → ℓ ≠ .slot a i := by
  have hne : ∀ a i, ret = some a → ℓ ≠ .slot a i := by
    intro a i hr e
    subst e
    have hok := h.at_ok hat
    obtain ⟨c, p, h1, rfl, rfl⟩ := hat
    cases hd : (c i).data with
    | true => obtain ⟨l, h2, -⟩ := hok.of_data (hret a hr) hd; rw [h1] at h2; cases h2
    | false =>
      obtain ⟨c', h2⟩ := hok.of_inner (hret a hr) hd
      rw [h1] at h2
      injection h2 with h2
      injection h2 with h3 h4
      have := congrArg List.length h4
      simp at this
  refine ⟨?_, hne⟩
  cases ℓ with
  | root =>
    refine ⟨⟨hat.1, ?_⟩, fun _ _ e => by cases e⟩
    rw [hs.root]; simp
  | slot a i =>
    obtain ⟨c, p, h1, rfl, rfl⟩ := hat
    refine ⟨⟨_, p, hs.node a c p h1, rfl, by simp⟩, ?_⟩
    intro a' i' e
    cases e
    rw [hs.retired]
    have : ¬ ret = some a := fun e => hne a i e rfl
    simp only [this, if_false]
    cases hr : m.retired a with
    | none => rfl
    | some τ =>
      have := h.frozen a c p τ h1 hr i
      rw [hc] at this; cases this

/-- Everything about what a storing step does to the memory. -/
theorem hTick_stored (o : Answers P) {s n : Nat} (x : HCtx m s) (hi : HPCInv m s n pc) {od : LoadOrd}
    (ha : pc.access .code = some (ℓ, od)) (hw : pc.writes m weak = true) :
    HStored m (hTick o m weak pc).1.bump ℓ := by
  rcases hTick_swung o x hi ha hw with ⟨h1, h2, h3⟩ | ⟨q, w0, w', new, ret, hat, hc, hc', hs, hret, hnear⟩
  · have hr : (hTick o m weak pc).1.bump.retired = m.retired := h1
    refine ⟨?_, ?_, ?_, ?_⟩
    · intro a c p _ h4 h5; rw [hr] at h5; exact absurd h4 h5
    · intro a h4; rw [hr]; exact x.h.retired_none h4
    · rintro a qa qa' ⟨wa, h4, h5⟩ ⟨wb, h6, h7⟩
      have h6' : (hTick o m weak pc).1.follow (hTick o m weak pc).1.root qa' = some wb := by
        rw [← h6]
        exact (follow_mem (m' := (hTick o m weak pc).1.bump) (m := (hTick o m weak pc).1) rfl _ _).symm
      rw [h3] at h6'
      exact Or.inl (x.h.path_unique h6' h4 h7 h5)
    · intro a h4 h5; rw [hr] at h5; exact absurd h4 h5
  · obtain ⟨hl, hne⟩ := HSwung.live hs x.h hat hc hret
    have hgone : ∀ a, m.retired a = none → (hTick o m weak pc).1.bump.retired a ≠ none → ret = some a := by
      intro a h1 h2
      apply Classical.byContradiction
      intro h3
      rw [hs.retired] at h2
      simp only [h3, if_false] at h2
      exact h2 h1
    refine ⟨?_, ?_, HSwung.moves hs x.h hat hc hc' hnear, ?_⟩
    · intro a cs p h1 h2 h3
      have h4 := hgone a h2 h3
      rw [hs.node a cs p h1]
      have : ∀ j, ¬ ℓ = .slot a j := fun j => hne a j h4
      simp [this]
    · intro a h1
      rw [hs.retired]
      split
      · next e =>
        have h2 := hret a e
        have hok := x.h.at_ok hat
        exfalso
        cases hd : w0.data with
        | true => obtain ⟨l, h3, -⟩ := hok.of_data h2 hd; rw [h1] at h3; cases h3
        | false => obtain ⟨l, h3⟩ := hok.of_inner h2 hd; rw [h1] at h3; cases h3
      · exact x.h.retired_none h1
    · intro a h1 h2
      exact ⟨q, w', hat.locAt, hl, w0, x.h.at_follow hat hc, hret a (hgone a h1 h2)⟩

end Contrie
