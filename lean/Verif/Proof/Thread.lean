import Verif.Proof.Instances
/-
What a thread inside a call knows about the shared memory, and why the steps of others do not invalidate it.
-/
set_option linter.unusedSectionVars false
namespace Contrie
variable {K P : Type} [DecidableEq K]

/-! ### Evolution of the memory -/

/-- One step of the machine, seen from the outside. -/
structure Evo (m m' : Mem P) : Prop where
  data : ∀ a l, m.mem a = some (.data l) → m'.mem a = some (.data l)
  inner : ∀ a c p, m.mem a = some (.inner c p) → ∃ c', m'.mem a = some (.inner c' p) ∧
    ∀ i, (c i).cond = true → c' i = c i
  retOld : ∀ a τ, m.retired a = some τ → m'.retired a = some τ
  retNew : ∀ a τ, m.retired a = none → m'.retired a = some τ → τ = m.clock
  clock : m'.clock = m.clock + 1

theorem Evo.of_ghost {m m' : Mem P} (hm : m'.mem = m.mem) (hr : m'.retired = m.retired) (hc : m'.clock = m.clock + 1) :
    Evo m m' where
  data := by intro a l h; rw [hm]; exact h
  inner := by intro a c p h; exact ⟨c, by rw [hm]; exact h, fun _ _ => rfl⟩
  retOld := by intro a τ h; rw [hr]; exact h
  retNew := by intro a τ h h'; rw [hr, h] at h'; cases h'
  clock := hc

theorem Evo.bump (m : Mem P) : Evo m m.bump := .of_ghost rfl rfl rfl

theorem Evo.condemn {m : Mem P} {a : Nat} {c : Fin 16 → Word} {p : List (Fin 16)} (i : Fin 16)
    (hm : m.mem a = some (.inner c p)) : Evo m (m.write (c i).condemn (.slot a i)).bump := by
  rw [write_condemn i hm]
  refine ⟨?_, ?_, fun _ _ h => h, ?_, rfl⟩
  · intro b l hb
    have : b ≠ a := by intro e; rw [e, hm] at hb; cases hb
    simp [Mem.bump, upd_other _ _ this, hb]
  · intro b c' p' hb
    by_cases hba : b = a
    · subst hba
      rw [hm] at hb; cases hb
      refine ⟨_, by simp [Mem.bump]; rfl, ?_⟩
      intro j hj
      by_cases hji : j = i
      · subst hji
        simp only [upd_same]
        cases hw : c j; simp_all [Word.condemn]
      · simp [upd_other _ _ hji]
    · exact ⟨c', by simp [Mem.bump, upd_other _ _ hba, hb], fun _ _ => rfl⟩
  · intro b τ h h'; simp [Mem.bump, h] at h'

theorem Swung.evo {cfg : Config K P} {A : Nat → AMap K P} {m m' : Mem P} {loc : Loc} {q : List (Fin 16)} {w0 w' : Word}
    {new : Option (Node P)} {ret : Option Nat} (hs : Swung m m' loc w' new ret) (h : MemInv cfg A m)
    (hat : m.At loc q w0) (hc : w0.cond = false) (hret : ∀ a, ret = some a → w0.ptr = some a) : Evo m m' where
  data := hs.data
  inner := by
    intro a c p hm
    refine ⟨_, hs.node a c p hm, fun i hi => ?_⟩
    have : loc ≠ .slot a i := by
      intro e; subst e
      obtain ⟨c2, p2, hm2, -, rfl⟩ := hat
      rw [hm] at hm2; cases hm2
      rw [hc] at hi; cases hi
    simp [this]
  retOld := by
    intro a τ hr
    rw [hs.retired]
    split
    · next e =>
      have := h.live q w0 a (h.at_follow hat hc) (hret a e)
      rw [hr] at this; cases this
    · exact hr
  retNew := by
    intro a τ hr hr'
    rw [hs.retired] at hr'
    split at hr'
    · cases hr'; rfl
    · rw [hr] at hr'; cases hr'
  clock := hs.clock

/-! ### Held nodes -/

/-- Node `a` exists and was not retired before instant `s`. -/
def Held (m : Mem P) (s : Nat) (a : Nat) : Prop := m.mem a ≠ none ∧ ∀ τ, m.retired a = some τ → s ≤ τ

theorem Held.evo {m m' : Mem P} {s a : Nat} (h : Held m s a) (he : Evo m m') (hs : s ≤ m.clock) : Held m' s a := by
  refine ⟨?_, ?_⟩
  · intro hn
    cases hm : m.mem a with
    | none => exact h.1 hm
    | some n =>
      cases n with
      | data l => rw [he.data a l hm] at hn; cases hn
      | inner c p => obtain ⟨c', hc', -⟩ := he.inner a c p hm; rw [hc'] at hn; cases hn
  · intro τ hr
    cases hm : m.retired a with
    | none => rw [he.retNew a τ hm hr]; exact hs
    | some τ' => rw [he.retOld a τ' hm] at hr; cases hr; exact h.2 τ hm

theorem Held.mono {m : Mem P} {s s' a : Nat} (h : Held m s a) (hs : s' ≤ s) : Held m s' a :=
  ⟨h.1, fun τ hr => Nat.le_trans hs (h.2 τ hr)⟩

/-- The pointer of a word is held. -/
def WHeld (m : Mem P) (s : Nat) (w : Word) : Prop := ∀ b, w.ptr = some b → Held m s b

theorem WHeld.evo {m m' : Mem P} {s : Nat} {w : Word} (h : WHeld m s w) (he : Evo m m') (hs : s ≤ m.clock) :
    WHeld m' s w := fun b hb => (h b hb).evo he hs

theorem WordOK.evo {cfg : Config K P} {m m' : Mem P} {w : Word} {q : List (Fin 16)} (h : WordOK cfg m w q)
    (he : Evo m m') : WordOK cfg m' w q := by
  simp only [WordOK] at h ⊢
  cases hp : w.ptr with
  | none => simpa [hp] using h
  | some a =>
    simp only [hp] at h ⊢
    cases hd : w.data with
    | true => simp only [hd, if_true] at h ⊢; obtain ⟨l, h1, h2⟩ := h; exact ⟨l, he.data a l h1, h2⟩
    | false =>
      simp only [hd] at h ⊢
      obtain ⟨c, h1⟩ := h
      obtain ⟨c', h2, -⟩ := he.inner a c q h1
      exact ⟨c', h2⟩

/-- `loc` is a cell of path `q` in a held node (or the root). -/
def LocAt (m : Mem P) (s : Nat) (loc : Loc) (q : List (Fin 16)) : Prop :=
  match loc with
  | .root => q = []
  | .slot a i => ∃ c p, m.mem a = some (.inner c p) ∧ q = p ++ [i] ∧ Held m s a

theorem LocAt.evo {m m' : Mem P} {s : Nat} {loc : Loc} {q : List (Fin 16)} (h : LocAt m s loc q) (he : Evo m m')
    (hs : s ≤ m.clock) : LocAt m' s loc q := by
  cases loc with
  | root => exact h
  | slot a i =>
    obtain ⟨c, p, hm, rfl, hh⟩ := h
    obtain ⟨c', hc', -⟩ := he.inner a c p hm
    exact ⟨c', p, hc', rfl, hh.evo he hs⟩

/-- A (parent cell, child word) pair remembered by a thread. -/
def PairOK (m : Mem P) (s : Nat) (x : Loc × Word) : Prop :=
  ∃ a c q, x.2 = ⟨some a, false, false⟩ ∧ m.mem a = some (.inner c q) ∧ Held m s a ∧ LocAt m s x.1 q

theorem PairOK.evo {m m' : Mem P} {s : Nat} {x : Loc × Word} (h : PairOK m s x) (he : Evo m m')
    (hs : s ≤ m.clock) : PairOK m' s x := by
  obtain ⟨a, c, q, h1, h2, h3, h4⟩ := h
  obtain ⟨c', hc', -⟩ := he.inner a c q h2
  exact ⟨a, c', q, h1, hc', h3.evo he hs, h4.evo he hs⟩

/-! ### The accumulator of `prune` -/

/-- What the marking loop of `prune` knows after `n` cells. -/
structure AccOK (m : Mem P) (c : Fin 16 → Word) (n : Nat) (acc : PAcc) : Prop where
  cond : ∀ j : Fin 16, j.val < n → (c j).cond = true
  copied : ∀ j : Fin 16, j.val < n → acc.newChild j = (c j).erase
  zero : acc.childCnt = 0 → ∀ j : Fin 16, j.val < n → (c j).ptr = none
  one : acc.allowContract = true → acc.childCnt = 1 → ∃ (j : Fin 16) (b : Nat) (d : P), j.val < n ∧
    acc.lastLeaf = some (c j).erase ∧ (c j).ptr = some b ∧ (c j).data = true ∧ m.mem b = some (.data [d]) ∧
    ∀ j' : Fin 16, j'.val < n → j' ≠ j → (c j').ptr = none

theorem AccOK.init (m : Mem P) (c : Fin 16 → Word) : AccOK m c 0 PAcc.init where
  cond := by intro j h; omega
  copied := by intro j h; omega
  zero := by intro _ j h; omega
  one := by intro _ h; cases h

theorem AccOK.evo {m m' : Mem P} {c c' : Fin 16 → Word} {n : Nat} {acc : PAcc} (h : AccOK m c n acc) (he : Evo m m')
    (hc : ∀ i, (c i).cond = true → c' i = c i) : AccOK m' c' n acc where
  cond := by intro j hj; rw [hc j (h.cond j hj)]; exact h.cond j hj
  copied := by intro j hj; rw [hc j (h.cond j hj)]; exact h.copied j hj
  zero := by intro h0 j hj; rw [hc j (h.cond j hj)]; exact h.zero h0 j hj
  one := by
    intro h1 h2
    obtain ⟨j, b, d, a1, a2, a3, a4, a5, a6⟩ := h.one h1 h2
    refine ⟨j, b, d, a1, ?_, ?_, ?_, he.data _ _ a5, ?_⟩
    · rw [hc j (h.cond j a1)]; exact a2
    · rw [hc j (h.cond j a1)]; exact a3
    · rw [hc j (h.cond j a1)]; exact a4
    · intro j' b1 b2; rw [hc j' (h.cond j' b1)]; exact a6 j' b1 b2

theorem PAcc.decide_ok {m : Mem P} {c : Fin 16 → Word} {acc : PAcc} (h : AccOK m c 16 acc) (q : List (Fin 16)) :
    match acc.decide.1 with
    | .word w => PruneOK m q c w none
    | .copy cells => PruneOK m q c ⟨some m.next, false, false⟩ (some (.inner cells q)) := by
  have hcopy : PruneOK m q c ⟨some m.next, false, false⟩ (some (.inner acc.newChild q)) := by
    have : acc.newChild = fun i => (c i).erase := by funext i; exact h.copied i i.isLt
    rw [this]; exact .copy
  simp only [PAcc.decide]
  split
  · next w e4 =>
    split at e4 <;> cases e4
    · next leaf f1 f2 f3 =>
      obtain ⟨j, b, d, a1, a2, a3, a4, a5, a6⟩ := h.one f1 f2
      rw [f3] at a2; cases a2
      exact .single j b d a3 a4 a5 (fun j' hj' => a6 j' j'.isLt hj')
    · next f1 f2 f3 => exact .null (fun j => h.zero ‹_› j j.isLt)
  · next w e4 =>
    split at e4 <;> cases e4
    exact hcopy
end Contrie
