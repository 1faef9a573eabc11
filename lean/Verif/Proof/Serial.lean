import Verif.Proof.Extra
/-
Executions in which updates do not overlap: the trie is kept fully pruned.
-/
set_option linter.unusedSectionVars false
namespace Contrie
variable {K P : Type} [DecidableEq K]

/-- Key `k` is present and its hash starts with `q`. -/
def Under (cfg : Config K P) (A : AMap K P) (q : List (Fin 16)) (k : K) : Prop :=
  q <+: nibs (cfg.hash k) ∧ A k ≠ none

/-- Two different keys present have hashes starting with `q`. -/
def Two (cfg : Config K P) (A : AMap K P) (q : List (Fin 16)) : Prop :=
  ∃ k1 k2, k1 ≠ k2 ∧ Under cfg A q k1 ∧ Under cfg A q k2

/-- Live inner nodes are necessary (except those of paths in `ex`), their cells are not condemned (except those
in `cd`). -/
structure SInv (cfg : Config K P) (m : Mem P) (ex : List (Fin 16) → Prop) (cd : Nat → Fin 16 → Prop) : Prop where
  two : ∀ a c p, m.mem a = some (.inner c p) → m.retired a = none → Two cfg (m.abs cfg) p ∨ ex p
  clean : ∀ a c p i, m.mem a = some (.inner c p) → m.retired a = none → (c i).cond = true → cd a i

/-- No exceptions. -/
def noEx : List (Fin 16) → Prop := fun _ => False
/-- No condemned cells. -/
def noCd : Nat → Fin 16 → Prop := fun _ _ => False
/-- Nodes an insertion of `k` has created on its way. -/
def exTrav (cfg : Config K P) (A : AMap K P) (k : K) : List (Fin 16) → Prop :=
  fun p => p <+: nibs (cfg.hash k) ∧ ∃ k', k' ≠ k ∧ Under cfg A p k'
/-- Nodes a removal has not looked at yet. -/
def exRem (h : BitVec 64) (n : Nat) : List (Fin 16) → Prop := fun p => p <+: nibs h ∧ p.length < n
/-- A cell of a node that is not retired. -/
def LiveLoc (m : Mem P) : Loc → Prop
  | .root => True
  | .slot a _ => m.retired a = none

/-- What the removal remembers is still there. -/
def LevelsNow (m : Mem P) (h : BitVec 64) : List (Loc × Word) → Prop
  | [] => True
  | (loc, w) :: rest => (∃ a c, w = ⟨some a, false, false⟩ ∧ m.mem a = some (.inner c (pre h rest.length)) ∧
      m.At loc (pre h rest.length) w) ∧ LevelsNow m h rest

/-- The counting loop: two non-null cells for a count above one. -/
def CountOK (m : Mem P) (w : Word) (n cnt : Nat) : Prop :=
  ∃ a c p, w.ptr = some a ∧ m.mem a = some (.inner c p) ∧
    (1 ≤ cnt → ∃ j : Fin 16, j.val < n ∧ (c j).ptr ≠ none) ∧
    (2 ≤ cnt → ∃ j j' : Fin 16, j ≠ j' ∧ (c j).ptr ≠ none ∧ (c j').ptr ≠ none)

/-- More about the accumulator of `prune`. -/
structure Acc2 (m : Mem P) (c : Fin 16 → Word) (n : Nat) (acc : PAcc) : Prop where
  zero : acc.childCnt = 0 → acc.lastLeaf = none
  inner : acc.allowContract = false → ∃ j : Fin 16, j.val < n ∧ (c j).ptr ≠ none ∧ (c j).data = false
  leaf : acc.allowContract = true → 1 ≤ acc.childCnt → acc.lastLeaf ≠ none ∧
    ∃ j : Fin 16, j.val < n ∧ (c j).ptr ≠ none
  two : acc.allowContract = true → 2 ≤ acc.childCnt →
    (∃ (j : Fin 16) (b : Nat) (l : List P), j.val < n ∧ (c j).ptr = some b ∧ (c j).data = true ∧ m.mem b = some (.data l) ∧ 2 ≤ l.length) ∨
    ∃ j j' : Fin 16, j.val < n ∧ j'.val < n ∧ j ≠ j' ∧ (c j).ptr ≠ none ∧ (c j').ptr ≠ none

/-! ### Elementary facts -/

section
variable {cfg : Config K P} {A : Nat → AMap K P} {m m' : Mem P} {loc : Loc} {q : List (Fin 16)} {w0 w' : Word}
  {new : Option (Node P)} {ret : Option Nat}

theorem Two.mono {A B : AMap K P} {q : List (Fin 16)} (h : Two cfg A q) (hAB : ∀ k, A k ≠ none → B k ≠ none) :
    Two cfg B q := by
  obtain ⟨k1, k2, h1, h2, h3⟩ := h
  exact ⟨k1, k2, h1, ⟨h2.1, hAB _ h2.2⟩, ⟨h3.1, hAB _ h3.2⟩⟩

theorem Two.up {A : AMap K P} {q r : List (Fin 16)} (h : Two cfg A r) (hqr : q <+: r) : Two cfg A q := by
  obtain ⟨k1, k2, h1, h2, h3⟩ := h
  exact ⟨k1, k2, h1, ⟨hqr.trans h2.1, h2.2⟩, ⟨hqr.trans h3.1, h3.2⟩⟩

theorem Two.short {A : AMap K P} {q : List (Fin 16)} (h : Two cfg A q) : q.length ≤ 16 := by
  obtain ⟨k1, k2, h1, h2, h3⟩ := h
  exact prefix_length_le h2.1

theorem SInv.weaken {ex ex' : List (Fin 16) → Prop} {cd cd' : Nat → Fin 16 → Prop} (h : SInv cfg m ex cd)
    (he : ∀ a c p, m.mem a = some (.inner c p) → m.retired a = none → ex p → Two cfg (m.abs cfg) p ∨ ex' p)
    (hc : ∀ a i, cd a i → cd' a i) : SInv cfg m ex' cd' where
  two := by
    intro a c p h1 h2
    rcases h.two a c p h1 h2 with h3 | h3
    · exact Or.inl h3
    · exact he a c p h1 h2 h3
  clean := fun a c p i h1 h2 h3 => hc a i (h.clean a c p i h1 h2 h3)

/-- Only the ghost parts and the collector's part of the memory changed. -/
theorem SInv.same {ex : List (Fin 16) → Prop} {cd : Nat → Fin 16 → Prop} (h : SInv cfg m ex cd)
    (hm : m'.mem = m.mem) (hr : m'.root = m.root) (ht : m'.retired = m.retired) : SInv cfg m' ex cd where
  two := by intro a c p h1 h2; rw [abs_mem hm hr]; rw [hm] at h1; rw [ht] at h2; exact h.two a c p h1 h2
  clean := by intro a c p i h1 h2 h3; rw [hm] at h1; rw [ht] at h2; exact h.clean a c p i h1 h2 h3

theorem At_same (hm : m'.mem = m.mem) (hr : m'.root = m.root) (h : m.At loc q w0) : m'.At loc q w0 := by
  cases loc with
  | root => simpa only [Mem.At, hr] using h
  | slot a i => simpa only [Mem.At, hm] using h

theorem LevelsNow.same {h : BitVec 64} {lv : List (Loc × Word)} (hl : LevelsNow m h lv)
    (hm : m'.mem = m.mem) (hr : m'.root = m.root) : LevelsNow m' h lv := by
  induction lv with
  | nil => trivial
  | cons x rest ih =>
    obtain ⟨loc, w⟩ := x
    obtain ⟨⟨a, c, h1, h2, h3⟩, h4⟩ := hl
    exact ⟨⟨a, c, h1, by rw [hm]; exact h2, At_same hm hr h3⟩, ih h4⟩

/-- A live cell is a part of the trie. -/
theorem MemInv.live_follow (h : MemInv cfg A m) (hat : m.At loc q w0) (hl : LiveLoc m loc) :
    m.follow m.root q = some w0.erase := by
  cases loc with
  | root => obtain ⟨rfl, rfl⟩ := hat; rfl
  | slot a i =>
    obtain ⟨c, p, hm, rfl, rfl⟩ := hat
    rw [follow_append' (h.inner_at hm hl)]
    simp [Mem.follow, Mem.cellsOf, hm]

/-- A live cell is not condemned in sequential use. -/
theorem SInv.cell_clean {ex : List (Fin 16) → Prop} (hs : SInv cfg m ex noCd) (h : MemInv cfg A m)
    (hat : m.At loc q w0) (hl : LiveLoc m loc) : w0.cond = false := by
  cases loc with
  | root => obtain ⟨rfl, rfl⟩ := hat; exact h.rootClean
  | slot a i =>
    obtain ⟨c, p, hm, rfl, rfl⟩ := hat
    cases hc : (c i).cond with
    | false => rfl
    | true => exact (hs.clean a c p i hm hl hc).elim

/-- The content below a live cell. -/
theorem MemInv.live_abs (h : MemInv cfg A m) (hat : m.At loc q w0) (hl : LiveLoc m loc) {k : K}
    (hk : q <+: nibs (cfg.hash k)) {v : Option P} (hv : m.leafVal cfg k w0 = some v) : m.abs cfg k = v := by
  obtain ⟨ns, hns⟩ := hk
  simp only [Mem.abs, ← hns]
  rw [look_follow (h.live_follow hat hl)]
  exact look_leaf ns (by rw [leafVal_congr (w' := w0) (by simp)]; exact hv)

/-- An item of a data node of the trie is present. -/
theorem MemInv.item_under (h : MemInv cfg A m) (hat : m.At loc q w0) (hl : LiveLoc m loc) {b : Nat} {l : List P}
    (hp : w0.ptr = some b) (hd : w0.data = true) (hm : m.mem b = some (.data l)) {x : P} (hx : x ∈ l) :
    Under cfg (m.abs cfg) q (cfg.key x) := by
  obtain ⟨l', hl', hok⟩ := (h.at_ok hat).of_data hp hd
  rw [hm] at hl'; cases hl'
  refine ⟨hok.pre x hx, ?_⟩
  rw [h.live_abs hat hl (hok.pre x hx) (leafVal_data hp hd hm)]
  intro hn
  rw [List.find?_eq_none] at hn
  exact hn x hx (by simp)

/-- Something is below every non-null cell of a live node. -/
theorem SInv.cell_under {ex : List (Fin 16) → Prop} {cd : Nat → Fin 16 → Prop} (hs : SInv cfg m ex cd)
    (h : MemInv cfg A m) {a : Nat} {c : Fin 16 → Word} {p : List (Fin 16)} (hm : m.mem a = some (.inner c p))
    (hr : m.retired a = none) (j : Fin 16) (hp : (c j).ptr ≠ none) (hex : ¬ ex (p ++ [j])) :
    ∃ k, Under cfg (m.abs cfg) (p ++ [j]) k := by
  have hat : m.At (.slot a j) (p ++ [j]) (c j) := ⟨c, p, hm, rfl, rfl⟩
  have hl : LiveLoc m (.slot a j) := hr
  cases hb : (c j).ptr with
  | none => exact absurd hb hp
  | some b =>
    cases hd : (c j).data with
    | true =>
      obtain ⟨l, h1, h2⟩ := (h.at_ok hat).of_data hb hd
      obtain ⟨x, hx⟩ := List.exists_mem_of_ne_nil l h2.ne
      exact ⟨_, h.item_under hat hl hb hd h1 hx⟩
    | false =>
      obtain ⟨c', h1⟩ := (h.at_ok hat).of_inner hb hd
      have h2 : m.retired b = none := h.live _ _ b (h.live_follow hat hl) hb
      rcases hs.two b c' _ h1 h2 with ⟨k1, k2, h3, h4, h5⟩ | h3
      · exact ⟨k1, h4⟩
      · exact absurd h3 hex

/-- An inner node below a live cell is necessary. -/
theorem SInv.cell_two {ex : List (Fin 16) → Prop} {cd : Nat → Fin 16 → Prop} (hs : SInv cfg m ex cd)
    (h : MemInv cfg A m) {a : Nat} {c : Fin 16 → Word} {p : List (Fin 16)} (hm : m.mem a = some (.inner c p))
    (hr : m.retired a = none) (j : Fin 16) (hp : (c j).ptr ≠ none) (hd : (c j).data = false) (hex : ¬ ex (p ++ [j])) :
    Two cfg (m.abs cfg) p := by
  have hat : m.At (.slot a j) (p ++ [j]) (c j) := ⟨c, p, hm, rfl, rfl⟩
  have hl : LiveLoc m (.slot a j) := hr
  cases hb : (c j).ptr with
  | none => exact absurd hb hp
  | some b =>
    obtain ⟨c', h1⟩ := (h.at_ok hat).of_inner hb hd
    have h2 : m.retired b = none := h.live _ _ b (h.live_follow hat hl) hb
    rcases hs.two b c' _ h1 h2 with h3 | h3
    · exact h3.up (List.prefix_append _ _)
    · exact absurd h3 hex

theorem under_ne {A : AMap K P} {p : List (Fin 16)} {j j' : Fin 16} {k k' : K} (h : Under cfg A (p ++ [j]) k)
    (h' : Under cfg A (p ++ [j']) k') (hj : j ≠ j') : k ≠ k' := by
  intro e
  subst e
  obtain ⟨t, ht⟩ := h.1
  obtain ⟨t', ht'⟩ := h'.1
  rw [← ht'] at ht
  simp at ht
  exact hj ht.1

/-- Two non-null cells make a node necessary. -/
theorem SInv.cells_two {ex : List (Fin 16) → Prop} {cd : Nat → Fin 16 → Prop} (hs : SInv cfg m ex cd)
    (h : MemInv cfg A m) {a : Nat} {c : Fin 16 → Word} {p : List (Fin 16)} (hm : m.mem a = some (.inner c p))
    (hr : m.retired a = none) {j j' : Fin 16} (hj : j ≠ j') (hp : (c j).ptr ≠ none) (hp' : (c j').ptr ≠ none)
    (hex : ∀ i, ¬ ex (p ++ [i])) : Two cfg (m.abs cfg) p := by
  obtain ⟨k, hk⟩ := hs.cell_under h hm hr j hp (hex j)
  obtain ⟨k', hk'⟩ := hs.cell_under h hm hr j' hp' (hex j')
  exact ⟨k, k', under_ne hk hk' hj, ⟨(List.prefix_append _ _).trans hk.1, hk.2⟩,
    ⟨(List.prefix_append _ _).trans hk'.1, hk'.2⟩⟩

/-- A successful CAS. -/
theorem SInv.swung {ex ex' : List (Fin 16) → Prop} {cd cd' : Nat → Fin 16 → Prop} (hs : SInv cfg m ex cd)
    (hsw : Swung m m' loc w' new ret) (hc' : w'.cond = false)
    (hold : ∀ b c p, m.mem b = some (.inner c p) → m.retired b = none → ret ≠ some b →
      Two cfg (m.abs cfg) p ∨ ex p → Two cfg (m'.abs cfg) p ∨ ex' p)
    (hnew : ∀ c p, new = some (.inner c p) → (Two cfg (m'.abs cfg) p ∨ ex' p) ∧ ∀ i, (c i).cond = false)
    (hcd : ∀ b i, ret ≠ some b → cd b i → cd' b i) : SInv cfg m' ex' cd' := by
  have hinner : ∀ b c' p, m'.mem b = some (.inner c' p) →
      (∃ c, m.mem b = some (.inner c p) ∧ c' = fun j => if loc = .slot b j then w' else c j) ∨
      (b = m.next ∧ new = some (.inner c' p)) := by
    intro b c' p hb
    cases hmb : m.mem b with
    | none =>
      rw [hsw.fresh b hmb] at hb
      split at hb
      · exact Or.inr ⟨‹_›, hb⟩
      · cases hb
    | some n =>
      cases n with
      | data l => rw [hsw.data b l hmb] at hb; cases hb
      | inner c p' => rw [hsw.node b c p' hmb] at hb; cases hb; exact Or.inl ⟨c, rfl, rfl⟩
  have hret : ∀ b, m'.retired b = none → ret ≠ some b ∧ m.retired b = none := by
    intro b hb
    rw [hsw.retired] at hb
    split at hb
    · cases hb
    · exact ⟨‹_›, hb⟩
  constructor
  · intro b c' p hb hr
    obtain ⟨h1, h2⟩ := hret b hr
    rcases hinner b c' p hb with ⟨c, hm, -⟩ | ⟨-, hn⟩
    · exact hold b c p hm h2 h1 (hs.two b c p hm h2)
    · exact (hnew c' p hn).1
  · intro b c' p i hb hr hi
    obtain ⟨h1, h2⟩ := hret b hr
    rcases hinner b c' p hb with ⟨c, hm, rfl⟩ | ⟨-, hn⟩
    · simp only at hi
      split at hi
      · rw [hc'] at hi; cases hi
      · exact hcd b i h1 (hs.clean b c p i hm h2 hi)
    · rw [(hnew c' p hn).2 i] at hi; cases hi

theorem At_len (h : MemInv cfg A m) (hat : m.At loc q w0) : q.length ≤ 16 := h.at_len hat

/-- The location determines the path. -/
theorem At_unique {q' : List (Fin 16)} {w1 : Word} (h : m.At loc q w0) (h' : m.At loc q' w1) : q = q' ∧ w0 = w1 := by
  cases loc with
  | root => obtain ⟨rfl, rfl⟩ := h; obtain ⟨rfl, rfl⟩ := h'; exact ⟨rfl, rfl⟩
  | slot a i =>
    obtain ⟨c, p, h1, rfl, rfl⟩ := h
    obtain ⟨c', p', h1', rfl, rfl⟩ := h'
    rw [h1] at h1'; cases h1'
    exact ⟨rfl, rfl⟩

/-- Cells other than the changed one are unchanged. -/
theorem Swung.at_other (hsw : Swung m m' loc w' new ret) {loc' : Loc} {q' : List (Fin 16)} {w1 : Word} (h : m.At loc' q' w1)
    (hne : loc ≠ loc') : m'.At loc' q' w1 := by
  cases loc' with
  | root =>
    obtain ⟨rfl, rfl⟩ := h
    exact ⟨rfl, by rw [hsw.root, if_neg hne]⟩
  | slot a i =>
    obtain ⟨c, p, h1, rfl, rfl⟩ := h
    exact ⟨_, p, hsw.node a c p h1, rfl, by simp [hne]⟩

theorem LevelsNow.swung {h : BitVec 64} {lv : List (Loc × Word)} (hl : LevelsNow m h lv)
    (hsw : Swung m m' loc w' new ret) (hat : m.At loc q w0) (h16 : lv.length ≤ 16) (hlen : lv.length ≤ q.length) :
    LevelsNow m' h lv := by
  induction lv with
  | nil => trivial
  | cons x rest ih =>
    obtain ⟨loc', w⟩ := x
    obtain ⟨⟨a, c, h1, h2, h3⟩, h4⟩ := hl
    simp only [List.length_cons] at h16 hlen
    refine ⟨⟨a, _, h1, hsw.node a c _ h2, hsw.at_other h3 ?_⟩, ih h4 (by omega) (by omega)⟩
    intro e
    subst e
    obtain ⟨rfl, -⟩ := At_unique hat h3
    rw [pre_length _ (by omega)] at hlen
    omega

/-- Condemning a cell of a node at a deeper level. -/
theorem LevelsNow.condemn {h : BitVec 64} {lv : List (Loc × Word)} (hl : LevelsNow m h lv) {a : Nat} {c : Fin 16 → Word}
    {p : List (Fin 16)} (i : Fin 16) (hm : m.mem a = some (.inner c p)) (h16 : lv.length ≤ 16)
    (hlen : lv.length ≤ p.length + 1) :
    LevelsNow (m.write (c i).condemn (.slot a i)).bump h lv := by
  have hw := write_condemn i hm
  generalize m.write (c i).condemn (.slot a i) = m1 at *
  induction lv with
  | nil => trivial
  | cons x rest ih =>
    obtain ⟨loc', w⟩ := x
    obtain ⟨⟨b, cb, h1, h2, h3⟩, h4⟩ := hl
    simp only [List.length_cons] at h16 hlen
    have hmem : m1.bump.mem = upd m.mem a (some (.inner (upd c i (c i).condemn) p)) := by rw [hw]; rfl
    have hroot : m1.bump.root = m.root := by rw [hw]; rfl
    refine ⟨?_, ih h4 (by omega) (by omega)⟩
    have hb : ∃ cb', m1.bump.mem b = some (.inner cb' (pre h rest.length)) := by
      rw [hmem]
      by_cases e : b = a
      · subst e; rw [hm] at h2; cases h2; exact ⟨_, upd_same _ _ _⟩
      · exact ⟨cb, by rw [upd_other _ _ e]; exact h2⟩
    obtain ⟨cb', hb⟩ := hb
    refine ⟨b, cb', h1, hb, ?_⟩
    cases loc' with
    | root => simpa only [Mem.At, hroot] using h3
    | slot a' i' =>
      obtain ⟨c', p', g1, g2, g3⟩ := h3
      have hne : a' ≠ a := by
        intro e; subst e
        rw [hm] at g1; cases g1
        have := congrArg List.length g2
        rw [pre_length _ (by omega)] at this
        simp at this; omega
      exact ⟨c', p', by rw [hmem, upd_other _ _ hne]; exact g1, g2, g3⟩

end

/-! ### Steps -/

section
variable {cfg : Config K P} {A : Nat → AMap K P} {W : Nat → Option (LP K P)} {m : Mem P} {weak : Bool}

theorem SInv.bump {ex : List (Fin 16) → Prop} {cd : Nat → Fin 16 → Prop} (h : SInv cfg m ex cd) :
    SInv cfg m.bump ex cd := h.same rfl rfl rfl

/-- Content after a leaf was replaced by a data node. -/
abbrev m'Abs (cfg : Config K P) (m : Mem P) (cur : Loc) (l : List P) (ret : Option Nat) : AMap K P :=
  (m.swing cur ⟨some m.next, false, true⟩ (some (.data l)) ret).bump.abs cfg

end
end Contrie
