import Verif.Proof.OneRemExec
import Verif.Proof.Path
/-
Executions in which removals of keys whose hashes begin with `g` do not overlap with each other (everything else may overlap with
everything): the invariant of the part of the trie below `g`, and how changes of the memory affect it.
-/
set_option linter.unusedSectionVars false
namespace Contrie
variable {K P : Type} [DecidableEq K]

/-- Properly below `g`. -/
def BelowZ (g p : List (Fin 16)) : Prop := g <+: p ∧ g.length < p.length

theorem belowZ_cell {g p : List (Fin 16)} {i : Fin 16} : BelowZ g (p ++ [i]) ↔ g <+: p := by
  constructor
  · rintro ⟨h1, h2⟩
    refine List.prefix_of_prefix_length_le h1 (List.prefix_append _ _) ?_
    simp at h2; omega
  · intro h
    refine ⟨h.trans (List.prefix_append _ _), ?_⟩
    have := h.length_le
    simp; omega

theorem below_pre {g : List (Fin 16)} {h : BitVec 64} (hg : g <+: nibs h) {n : Nat} (hn : n ≤ 16) : BelowZ g (pre h n) ↔ g.length < n := by
  constructor
  · rintro ⟨-, h2⟩; rwa [pre_length _ hn] at h2
  · intro h1
    refine ⟨List.prefix_of_prefix_length_le hg (pre_prefix _ _) ?_, ?_⟩ <;> rw [pre_length _ hn] <;> omega

/-- Is the removal cleaning up node `a`? -/
def OnR (R : Option (BitVec 64 × PC K P)) (a : Nat) : Prop := ∃ h pc, R = some (h, pc) ∧ pc.on = some a

/-- The part of the trie below `g`: live inner nodes are necessary (except those of paths in `ex`), their cells are not condemned (except those of nodes in
`on`). The cells of the node at `g` itself can all be condemned. -/
structure ZS (cfg : Config K P) (g : List (Fin 16)) (m : Mem P) (ex : List (Fin 16) → Prop) (on : Nat → Prop) : Prop where
  two : ∀ a c p, m.mem a = some (.inner c p) → m.retired a = none → BelowZ g p → Two cfg (m.abs cfg) p ∨ ex p
  clean : ∀ a c p i, m.mem a = some (.inner c p) → m.retired a = none → g <+: p → (c i).cond = true →
    on a ∨ (p = g ∧ ∀ j, (c j).cond = true)

/-- What the removal remembers, as far as it is below `g`, is still there. -/
def LevelsZ (g : List (Fin 16)) (m : Mem P) (h : BitVec 64) : List (Loc × Word) → Prop
  | [] => True
  | (loc, w) :: rest => (∃ a c, w = ⟨some a, false, false⟩ ∧ m.mem a = some (.inner c (pre h rest.length)) ∧
      (g.length < rest.length → m.At loc (pre h rest.length) w)) ∧ LevelsZ g m h rest

/-- A removal pruning a node. -/
def OnZ (g : List (Fin 16)) (m : Mem P) (h : BitVec 64) (parent : Loc) (child : Word) (rest : List (Loc × Word)) : Prop :=
  LevelsZ g m h rest ∧ rest.length < 16 ∧ ∃ a c, child = ⟨some a, false, false⟩ ∧ m.mem a = some (.inner c (pre h rest.length)) ∧
    (g.length < rest.length → m.retired a = none → m.At parent (pre h rest.length) child)

/-- The removal in progress. -/
def RemZ (g : List (Fin 16)) (m : Mem P) (h : BitVec 64) : PC K P → Prop
  | .rem _ _ _ levels => LevelsZ g m h levels
  | .remCas _ _ _ levels _ _ _ => LevelsZ g m h levels
  | .count _ _ parent child rest i cnt => LevelsZ g m h ((parent, child) :: rest) ∧ (g.length < rest.length → CountOK m child i.val cnt)
  | .prune parent child _ _ (.clean _ _ rest) => OnZ g m h parent child rest
  | .pruneCas parent child _ (.clean _ _ rest) => OnZ g m h parent child rest
  | _ => True

/-- The invariant. -/
structure ZInv (cfg : Config K P) (g : List (Fin 16)) (m : Mem P) (I : K → Prop) (R : Option (BitVec 64 × PC K P)) : Prop where
  s : ZS cfg g m (exW cfg m I R) (OnR R)
  r : ∀ h pc, R = some (h, pc) → g <+: nibs h ∧ RemZ g m h pc

/-- Any call that prunes a node. -/
def HelpZ (g : List (Fin 16)) (m : Mem P) (R : Option (BitVec 64 × PC K P)) (child : Word) (n : Nat) (acc : PAcc) : Prop :=
  ∃ a c q, child = ⟨some a, false, false⟩ ∧ m.mem a = some (.inner c q) ∧
    (g <+: q → m.retired a = none → OnR R a ∨ (q = g ∧ ∀ j, (c j).cond = true)) ∧ Acc2 m c n acc ∧
    ∀ j : Fin 16, j.val < n → (c j).cond = true

/-- Any call in progress. -/
def HelpZPC (g : List (Fin 16)) (m : Mem P) (R : Option (BitVec 64 × PC K P)) : PC K P → Prop
  | .prune _ child i acc _ => HelpZ g m R child i.val acc
  | .pruneCas _ child acc _ => HelpZ g m R child 16 acc
  | _ => True

section
variable {cfg : Config K P} {A : Nat → AMap K P} {m m' : Mem P} {I : K → Prop} {R : Option (BitVec 64 × PC K P)} {g : List (Fin 16)}
  {loc : Loc} {q : List (Fin 16)} {w0 w' : Word} {new : Option (Node P)} {ret : Option Nat}
  {ex ex' : List (Fin 16) → Prop} {on on' : Nat → Prop}

/-! ### Elementary facts -/

theorem ZS.change (h : ZS cfg g m ex on)
    (he : ∀ a c p, m.mem a = some (.inner c p) → m.retired a = none → BelowZ g p → Two cfg (m.abs cfg) p ∨ ex p →
      Two cfg (m.abs cfg) p ∨ ex' p)
    (hc : ∀ a c p, m.mem a = some (.inner c p) → m.retired a = none → g <+: p → on a → on' a ∨ (p = g ∧ ∀ j, (c j).cond = true)) :
    ZS cfg g m ex' on' where
  two := fun a c p h1 h2 h3 => he a c p h1 h2 h3 (h.two a c p h1 h2 h3)
  clean := by
    intro a c p i h1 h2 h3 h4
    rcases h.clean a c p i h1 h2 h3 h4 with h5 | h5
    · exact hc a c p h1 h2 h3 h5
    · exact Or.inr h5

theorem ZS.same (h : ZS cfg g m ex on) (hm : m'.mem = m.mem) (hr : m'.root = m.root) (ht : m'.retired = m.retired) : ZS cfg g m' ex on where
  two := by intro a c p h1 h2; rw [abs_mem hm hr]; rw [hm] at h1; rw [ht] at h2; exact h.two a c p h1 h2
  clean := by intro a c p i h1 h2; rw [hm] at h1; rw [ht] at h2; exact h.clean a c p i h1 h2

/-- Inner child of a live node: it is necessary, or excused. -/
theorem ZS.child (hs : ZS cfg g m ex on) (h : MemInv cfg A m) {a : Nat} {c : Fin 16 → Word} {p : List (Fin 16)}
    (hm : m.mem a = some (.inner c p)) (hr : m.retired a = none) (hg : g <+: p) (j : Fin 16) (hp : (c j).ptr ≠ none)
    (hex : Two cfg (m.abs cfg) (p ++ [j]) ∨ ex (p ++ [j]) → Just cfg (m.abs cfg) I (p ++ [j])) :
    (∃ k, Under cfg (m.abs cfg) (p ++ [j]) k) ∧ ((c j).data = false → Just cfg (m.abs cfg) I p) := by
  have hat : m.At (.slot a j) (p ++ [j]) (c j) := ⟨c, p, hm, rfl, rfl⟩
  have hl : LiveLoc m (.slot a j) := hr
  cases hb : (c j).ptr with
  | none => exact absurd hb hp
  | some b =>
    cases hd : (c j).data with
    | true =>
      obtain ⟨l, h1, h2⟩ := (h.at_ok hat).of_data hb hd
      obtain ⟨x, hx⟩ := List.exists_mem_of_ne_nil l h2.ne
      exact ⟨⟨_, h.item_under hat hl hb hd h1 hx⟩, by intro e; cases e⟩
    | false =>
      obtain ⟨c', h1⟩ := (h.at_ok hat).of_inner hb hd
      have h2 : m.retired b = none := h.live _ _ b (h.live_follow hat hl) hb
      have h3 := hex (hs.two b c' _ h1 h2 (belowZ_cell.mpr hg))
      exact ⟨h3.under, fun _ => h3.up (List.prefix_append _ _)⟩

/-- Two non-null cells make a node necessary. -/
theorem ZS.cells_two (hs : ZS cfg g m ex on) (h : MemInv cfg A m) {a : Nat} {c : Fin 16 → Word} {p : List (Fin 16)}
    (hm : m.mem a = some (.inner c p)) (hr : m.retired a = none) (hg : g <+: p) {j j' : Fin 16} (hj : j ≠ j') (hp : (c j).ptr ≠ none)
    (hp' : (c j').ptr ≠ none) (hex : ∀ i, Two cfg (m.abs cfg) (p ++ [i]) ∨ ex (p ++ [i]) → Just cfg (m.abs cfg) I (p ++ [i])) :
    Two cfg (m.abs cfg) p := by
  obtain ⟨⟨k, hk⟩, -⟩ := hs.child h hm hr hg j hp (hex j)
  obtain ⟨⟨k', hk'⟩, -⟩ := hs.child h hm hr hg j' hp' (hex j')
  exact ⟨k, k', under_ne hk hk' hj, ⟨(List.prefix_append _ _).trans hk.1, hk.2⟩,
    ⟨(List.prefix_append _ _).trans hk'.1, hk'.2⟩⟩

/-- A node that `prune` decides to keep is necessary. -/
theorem ZS.of_copy (hs : ZS cfg g m ex on) (hi : MemInv cfg A m) {a : Nat} {c : Fin 16 → Word} {p : List (Fin 16)}
    (hm : m.mem a = some (.inner c p)) (hr : m.retired a = none) (hg : g <+: p)
    (hex : ∀ i, Two cfg (m.abs cfg) (p ++ [i]) ∨ ex (p ++ [i]) → Just cfg (m.abs cfg) I (p ++ [i])) {acc : PAcc} (h2 : Acc2 m c 16 acc)
    {cells : Fin 16 → Word} {r : PruneResult} (h : acc.decide = (.copy cells, r)) : Just cfg (m.abs cfg) I p := by
  obtain ⟨-, n1, n2⟩ := decide_copy h
  cases hac : acc.allowContract with
  | false =>
    obtain ⟨j, -, e2, e3⟩ := h2.inner hac
    exact (hs.child hi hm hr hg j e2 (hex j)).2 e3
  | true =>
    have h0 : acc.childCnt ≠ 0 := fun e => n2 ⟨e, h2.zero e⟩
    have h1 : acc.childCnt ≠ 1 := fun e => n1 ⟨hac, e, (h2.leaf hac (by omega)).1⟩
    rcases h2.two hac (by omega) with ⟨j, b, l, -, e1, e2, e3, e4⟩ | ⟨j, j', -, -, e1, e2, e3⟩
    · have hat : m.At (.slot a j) (p ++ [j]) (c j) := ⟨c, p, hm, rfl, rfl⟩
      have hl : LiveLoc m (.slot a j) := hr
      obtain ⟨l', g1, g2⟩ := (hi.at_ok hat).of_data e1 e2
      rw [e3] at g1; cases g1
      match l, e4, g2, e3 with
      | y1 :: y2 :: l, _, g2, e3 =>
        have hn := g2.nodup
        have u1 := hi.item_under hat hl e1 e2 e3 (x := y1) (by simp)
        have u2 := hi.item_under hat hl e1 e2 e3 (x := y2) (by simp)
        refine Or.inl ⟨cfg.key y1, cfg.key y2, ?_, ⟨(List.prefix_append _ _).trans u1.1, u1.2⟩,
          ⟨(List.prefix_append _ _).trans u2.1, u2.2⟩⟩
        intro e
        simp [e] at hn
    · exact Or.inl (hs.cells_two hi hm hr hg e1 e2 e3 hex)

/-! ### The pruners are not disturbed by the others -/

theorem HelpZ.evo {R' : Option (BitVec 64 × PC K P)} {child : Word} {n : Nat} {acc : PAcc} (h : HelpZ g m R child n acc)
    (he : Evo m m') (hR : ∀ a c q, m'.mem a = some (.inner c q) → g <+: q → m'.retired a = none → OnR R a → OnR R' a ∨ (q = g ∧ ∀ j, (c j).cond = true)) :
    HelpZ g m' R' child n acc := by
  obtain ⟨a, c, q, h1, h2, h3, h4, h5⟩ := h
  obtain ⟨c', g1, g2⟩ := he.inner a c q h2
  have hc : ∀ j : Fin 16, j.val < n → c' j = c j := fun j hj => g2 j (h5 j hj)
  refine ⟨a, c', q, h1, g1, ?_, h4.evo he.data hc, fun j hj => by rw [hc j hj]; exact h5 j hj⟩
  intro hq hr
  have hr0 : m.retired a = none := by
    cases e : m.retired a with
    | none => rfl
    | some τ => rw [he.retOld a τ e] at hr; cases hr
  rcases h3 hq hr0 with e | ⟨e1, e2⟩
  · exact hR a c' q g1 hq hr e
  · exact Or.inr ⟨e1, fun j => by rw [g2 j (e2 j)]; exact e2 j⟩

theorem HelpZPC.evo {R' : Option (BitVec 64 × PC K P)} {pc : PC K P} (h : HelpZPC g m R pc) (he : Evo m m')
    (hR : ∀ a c q, m'.mem a = some (.inner c q) → g <+: q → m'.retired a = none → OnR R a → OnR R' a ∨ (q = g ∧ ∀ j, (c j).cond = true)) :
    HelpZPC g m' R' pc := by
  unfold HelpZPC at h ⊢
  split <;> simp only at h
  · exact HelpZ.evo h he hR
  · exact HelpZ.evo h he hR
  · trivial

/-! ### Nothing relevant changed -/

theorem LevelsZ.same {h : BitVec 64} {lv : List (Loc × Word)} (hl : LevelsZ g m h lv)
    (hm : m'.mem = m.mem) (hr : m'.root = m.root) : LevelsZ g m' h lv := by
  induction lv with
  | nil => trivial
  | cons x rest ih =>
    obtain ⟨loc, w⟩ := x
    obtain ⟨⟨a, c, h1, h2, h3⟩, h4⟩ := hl
    exact ⟨⟨a, c, h1, by rw [hm]; exact h2, fun e => At_same hm hr (h3 e)⟩, ih h4⟩

theorem LevelsZ.len (h : MemInv cfg A m) {hh : BitVec 64} {lv : List (Loc × Word)} (hl : LevelsZ g m hh lv) : lv.length ≤ 16 := by
  cases lv with
  | nil => simp
  | cons x rest =>
    obtain ⟨loc, w⟩ := x
    obtain ⟨⟨a, c, h1, h2, h3⟩, -⟩ := hl
    have := (h.nodeOK a c _ h2).1
    simp [pre] at this
    simp; omega

theorem OnZ.same {h : BitVec 64} {parent : Loc} {child : Word} {rest : List (Loc × Word)}
    (ho : OnZ g m h parent child rest) (hm : m'.mem = m.mem) (hr : m'.root = m.root) (ht : m'.retired = m.retired) :
    OnZ g m' h parent child rest := by
  obtain ⟨h1, h2, a, c, h3, h4, h5⟩ := ho
  refine ⟨h1.same hm hr, h2, a, c, h3, by rw [hm]; exact h4, ?_⟩
  intro e e'; rw [ht] at e'; exact At_same hm hr (h5 e e')

theorem RemZ.same {h : BitVec 64} {pc : PC K P} (ho : RemZ g m h pc) (hm : m'.mem = m.mem) (hr : m'.root = m.root)
    (ht : m'.retired = m.retired) : RemZ g m' h pc := by
  unfold RemZ at ho ⊢
  split <;> simp only at ho
  · exact ho.same hm hr
  · exact ho.same hm hr
  · exact ⟨ho.1.same hm hr, fun e => (ho.2 e).same hm⟩
  · exact ho.same hm hr ht
  · exact ho.same hm hr ht
  · trivial

theorem ZInv.same (h : ZInv cfg g m I R) (hm : m'.mem = m.mem) (hr : m'.root = m.root) (ht : m'.retired = m.retired) :
    ZInv cfg g m' I R where
  s := by rw [exW_same hm hr ht]; exact h.s.same hm hr ht
  r := fun hh pc e => ⟨(h.r hh pc e).1, (h.r hh pc e).2.same hm hr ht⟩

theorem ZInv.bump (h : ZInv cfg g m I R) : ZInv cfg g m.bump I R := h.same rfl rfl rfl

/-- The pending insertions change. -/
theorem ZInv.setI {I' : K → Prop} (h : ZInv cfg g m I R)
    (hI : ∀ k, I k → g <+: nibs (cfg.hash k) → I' k ∨ m.abs cfg k ≠ none) : ZInv cfg g m I' R where
  s := by
    refine h.s.change ?_ (fun _ _ _ _ _ _ h => Or.inl h)
    intro a c p _ _ hb hp
    rcases hp with hp | ⟨k, h1, h2, k', h3, h4⟩ | hp
    · exact Or.inl hp
    · rcases hI k h1 (hb.1.trans h2) with e | e
      · exact Or.inr (Or.inl ⟨k, e, h2, k', h3, h4⟩)
      · exact Or.inl ⟨k', k, h3, h4, h2, e⟩
    · exact Or.inr (Or.inr hp)
  r := h.r

/-- The removal makes a step that does not change the memory. -/
theorem ZInv.setR {h : BitVec 64} {pc : PC K P} {R' : Option (BitVec 64 × PC K P)} (ho : ZInv cfg g m I (some (h, pc)))
    (hex : ∀ p, BelowZ g p → exRem h (pc.todo m) p → Just cfg (m.abs cfg) I p ∨ ∃ pc', R' = some (h, pc') ∧ exRem h (pc'.todo m) p)
    (hon : ∀ a c p, m.mem a = some (.inner c p) → m.retired a = none → g <+: p → pc.on = some a → OnR R' a ∨ (p = g ∧ ∀ j, (c j).cond = true))
    (hr : ∀ h' pc', R' = some (h', pc') → h' = h ∧ RemZ g m h pc') : ZInv cfg g m I R' where
  s := by
    refine ho.s.change ?_ ?_
    · rintro a c p - - hb (e | e | ⟨h', pc', e1, e2⟩)
      · exact Or.inl e
      · exact Or.inr (Or.inl e)
      · cases e1
        rcases hex p hb e2 with e | ⟨pc', e3, e4⟩
        · exact e.exW
        · exact Or.inr (Or.inr ⟨_, _, e3, e4⟩)
    · rintro a c p h1 h2 h3 ⟨h', pc', e1, e2⟩
      cases e1
      exact hon a c p h1 h2 h3 e2
  r := by
    intro h' pc' e
    obtain ⟨rfl, e2⟩ := hr h' pc' e
    exact ⟨(ho.r _ _ rfl).1, e2⟩

/-- A removal starts. -/
theorem ZInv.startR {h : BitVec 64} {key : K} {shift : Nat} (ho : ZInv cfg g m I none) (hg : g <+: nibs h) :
    ZInv cfg g m I (some (h, .rem key shift .root [])) where
  s := by
    refine ho.s.change ?_ ?_
    · rintro a c p - - - (hp | hp | ⟨h, pc, e, -⟩)
      · exact Or.inl hp
      · exact Or.inr (Or.inl hp)
      · cases e
    · rintro a c p - - - ⟨h, pc, e, -⟩; cases e
  r := by rintro h' pc e; cases e; exact ⟨hg, trivial⟩

/-! ### A successful compare-and-swap -/

theorem ZS.swung (hs : ZS cfg g m ex on) (hsw : Swung m m' loc w' new ret) (hat : m.At loc q w0) (hc : w0.cond = false) (hc' : w'.cond = false)
    (hold : ∀ b c p, m.mem b = some (.inner c p) → m.retired b = none → ret ≠ some b → BelowZ g p →
      Two cfg (m.abs cfg) p ∨ ex p → Two cfg (m'.abs cfg) p ∨ ex' p)
    (hnew : ∀ c p, new = some (.inner c p) → (BelowZ g p → Two cfg (m'.abs cfg) p ∨ ex' p) ∧ ∀ i, (c i).cond = false)
    (hcd : ∀ b, ret ≠ some b → on b → on' b) : ZS cfg g m' ex' on' := by
  have hinner : ∀ b c' p, m'.mem b = some (.inner c' p) →
      (∃ c, m.mem b = some (.inner c p) ∧ c' = fun j => if loc = .slot b j then w' else c j) ∨
      (b = m.next ∧ new = some (.inner c' p)) := by
    intro b c' p hb
    cases hmb : m.mem b with
    | none =>
      rw [hsw.fresh b hmb] at hb
      split at hb
      · exact Or.inr ⟨‹_›, hb⟩
      · cases hb
    | some n =>
      cases n with
      | data l => rw [hsw.data b l hmb] at hb; cases hb
      | inner c p' => rw [hsw.node b c p' hmb] at hb; cases hb; exact Or.inl ⟨c, rfl, rfl⟩
  have hret : ∀ b, m'.retired b = none → ret ≠ some b ∧ m.retired b = none := by
    intro b hb
    rw [hsw.retired] at hb
    split at hb
    · cases hb
    · exact ⟨‹_›, hb⟩
  constructor
  · intro b c' p hb hr hbel
    obtain ⟨h1, h2⟩ := hret b hr
    rcases hinner b c' p hb with ⟨c, hm, -⟩ | ⟨-, hn⟩
    · exact hold b c p hm h2 h1 hbel (hs.two b c p hm h2 hbel)
    · exact (hnew c' p hn).1 hbel
  · intro b c' p i hb hr hg hi
    obtain ⟨h1, h2⟩ := hret b hr
    rcases hinner b c' p hb with ⟨c, hm, rfl⟩ | ⟨-, hn⟩
    · simp only at hi
      split at hi
      · rw [hc'] at hi; cases hi
      · rcases hs.clean b c p i hm h2 hg hi with e | ⟨e1, e2⟩
        · exact Or.inl (hcd b h1 e)
        · refine Or.inr ⟨e1, fun j => ?_⟩
          simp only
          split
          · next e =>
            subst e
            obtain ⟨c2, p2, g1, -, g3⟩ := hat
            rw [hm] at g1; cases g1
            rw [← g3, e2 j] at hc; cases hc
          · exact e2 j
    · rw [(hnew c' p hn).2 i] at hi; cases hi

theorem LevelsZ.swung {h : BitVec 64} {lv : List (Loc × Word)} (hl : LevelsZ g m h lv)
    (hsw : Swung m m' loc w' new ret) (hne : ∀ n w, n < lv.length → g.length < n → m.At loc (pre h n) w → w.ptr ≠ none → w.data = false → False) :
    LevelsZ g m' h lv := by
  induction lv with
  | nil => trivial
  | cons x rest ih =>
    obtain ⟨loc', w⟩ := x
    obtain ⟨⟨a, c, h1, h2, h3⟩, h4⟩ := hl
    refine ⟨⟨a, _, h1, hsw.node a c _ h2, fun e => hsw.at_other (h3 e) ?_⟩, ih h4 ?_⟩
    · intro e2
      subst e2 h1
      exact hne rest.length _ (by simp) e (h3 e) (by simp) rfl
    · intro n w hn; exact hne n w (by simp; omega)

/-- Above `q`. -/
theorem LevelsZ.swung_above {h : BitVec 64} {lv : List (Loc × Word)} (hl : LevelsZ g m h lv)
    (hsw : Swung m m' loc w' new ret) (hat : m.At loc q w0) (h16 : lv.length ≤ 16) (hlen : lv.length ≤ q.length) : LevelsZ g m' h lv := by
  refine hl.swung hsw ?_
  intro n w hn _ hw _ _
  obtain ⟨rfl, -⟩ := At_unique hat hw
  rw [pre_length _ (by omega)] at hlen
  omega

/-- The inner node the changed cell pointed to. -/
theorem ret_path (h : MemInv cfg A m) (hat : m.At loc q w0) (hret : ∀ a, ret = some a → w0.ptr = some a)
    {b : Nat} {c : Fin 16 → Word} {p : List (Fin 16)} (hm : m.mem b = some (.inner c p)) (e : ret = some b) : p = q := by
  have hp := hret b e
  cases hd : w0.data with
  | true =>
    obtain ⟨l, h1, -⟩ := (h.at_ok hat).of_data hp hd
    rw [hm] at h1; cases h1
  | false =>
    obtain ⟨c', h1⟩ := (h.at_ok hat).of_inner hp hd
    rw [hm] at h1; cases h1; rfl

/-- A change that is not below `g` or replaces a leaf by something: the removal. -/
theorem RemZ.swung {h : BitVec 64} {pc : PC K P} (ho : RemZ g m h pc) (hi : MemInv cfg A m) (hg : g <+: nibs h)
    (hsw : Swung m m' loc w' new ret) (hat : m.At loc q w0) (hc : w0.cond = false) (hret : ∀ a, ret = some a → w0.ptr = some a)
    (hcase : ¬ BelowZ g q ∨ (w0.isLeaf ∧ w'.ptr ≠ none)) :
    RemZ g m' h pc ∧ ∀ p, BelowZ g p → exRem h (pc.todo m) p → exRem h (pc.todo m') p := by
  have hne : ∀ n w, n ≤ 16 → g.length < n → m.At loc (pre h n) w → w.ptr ≠ none → w.data = false → False := by
    intro n w h16 hn hw h1 h2
    obtain ⟨rfl, rfl⟩ := At_unique hat hw
    rcases hcase with e | ⟨e, -⟩
    · exact e ((below_pre hg h16).mpr hn)
    · rcases e with e | e
      · exact h1 e
      · rw [h2] at e; cases e
  have hlv : ∀ {lv}, LevelsZ g m h lv → LevelsZ g m' h lv := by
    intro lv hl
    have := hl.len hi
    exact hl.swung hsw (fun n w hn => hne n w (by omega))
  have hretd : ∀ b c n, m.mem b = some (.inner c (pre h n)) → n ≤ 16 → g.length < n → m'.retired b = m.retired b := by
    intro b c n hm hn hgn
    rw [hsw.retired, if_neg]
    intro e
    have := ret_path hi hat hret hm e
    have hp := hret b e
    cases hd : w0.data with
    | true =>
      obtain ⟨l, h1, -⟩ := (hi.at_ok hat).of_data hp hd
      rw [hm] at h1; cases h1
    | false => exact hne n w0 hn hgn (this ▸ hat) (by rw [hp]; simp) hd
  have hon : ∀ {parent : Loc} {child : Word} {rest : List (Loc × Word)},
      OnZ g m h parent child rest → OnZ g m' h parent child rest ∧
        ∀ p, BelowZ g p → exRem h (rest.length + liveBit m child) p → exRem h (rest.length + liveBit m' child) p := by
    rintro parent child rest ⟨h1, h2, a, c, rfl, h4, h5⟩
    refine ⟨⟨hlv h1, h2, a, _, rfl, hsw.node a c _ h4, ?_⟩, ?_⟩
    · intro e e'
      rw [hretd a c _ h4 (by omega) e] at e'
      refine hsw.at_other (h5 e e') ?_
      intro e2; subst e2
      exact hne _ _ (by omega) e (h5 e e') (by simp) rfl
    · rintro p hb ⟨e1, e2⟩
      refine ⟨e1, ?_⟩
      have hlb : liveBit m (⟨some a, false, false⟩ : Word) ≤ 1 := by unfold liveBit; split <;> (try split) <;> omega
      have hp := hb.2
      by_cases hgl : g.length < rest.length
      · have : liveBit m' (⟨some a, false, false⟩ : Word) = liveBit m ⟨some a, false, false⟩ := by
          simp only [liveBit, hretd a c _ h4 (by omega) hgl]
        rw [this]; exact e2
      · omega
  unfold RemZ at ho ⊢
  split <;> simp only at ho
  · exact ⟨hlv ho, fun p _ e => e⟩
  · exact ⟨hlv ho, fun p _ e => e⟩
  · refine ⟨⟨hlv ho.1, ?_⟩, fun p _ e => e⟩
    intro e
    obtain ⟨a, c, p, h1, h2, h3, h4⟩ := ho.2 e
    obtain ⟨⟨a', c', g1, g2, g3⟩, -⟩ := ho.1
    subst g1
    cases h1
    rw [h2] at g2; cases g2
    have hlen := ho.1.len hi
    simp only [List.length_cons] at hlen
    have hc' : ∀ j, (c j).ptr ≠ none → (if loc = .slot a j then w' else c j).ptr ≠ none := by
      intro j hj; split
      · next e2 =>
        subst e2
        rcases hcase with e3 | ⟨-, e3⟩
        · exfalso
          obtain ⟨c2, p2, f1, rfl, -⟩ := hat
          rw [h2] at f1; cases f1
          exact e3 (belowZ_cell.mpr ((below_pre hg (by omega)).mpr e).1)
        · exact e3
      · exact hj
    refine ⟨a, _, _, rfl, hsw.node a c _ h2, ?_, ?_⟩
    · intro e; obtain ⟨j, e1, e2⟩ := h3 e; exact ⟨j, e1, hc' j e2⟩
    · intro e; obtain ⟨j, j', e1, e2, e3⟩ := h4 e; exact ⟨j, j', e1, hc' j e2, hc' j' e3⟩
  · exact hon ho
  · exact hon ho
  · rename_i n1 n2 n3 n4 n5
    refine ⟨trivial, ?_⟩
    rintro p - ⟨e1, e2⟩
    exfalso
    cases pc with
    | prune _ _ _ _ k =>
      cases k with
      | clean d r rest => exact n4 _ _ _ _ _ _ _ rfl
      | _ => simp [PC.todo] at e2
    | pruneCas _ _ _ k =>
      cases k with
      | clean d r rest => exact n5 _ _ _ _ _ _ rfl
      | _ => simp [PC.todo] at e2
    | count => exact n3 _ _ _ _ _ _ _ rfl
    | _ => simp [PC.todo] at e2

/-- A change that is not below `g` or replaces a leaf by something. -/
theorem ZInv.swung (ho : ZInv cfg g m I R) (hi : MemInv cfg A m)
    (hsw : Swung m m' loc w' new ret) (hat : m.At loc q w0) (hc : w0.cond = false) (hc' : w'.cond = false)
    (hret : ∀ a, ret = some a → w0.ptr = some a) (hcase : ¬ BelowZ g q ∨ (w0.isLeaf ∧ w'.ptr ≠ none))
    (hmono : ∀ k, g <+: nibs (cfg.hash k) → m.abs cfg k ≠ none → m'.abs cfg k ≠ none)
    (hnew : ∀ c p, new = some (.inner c p) → (BelowZ g p → Just cfg (m'.abs cfg) I p) ∧ ∀ i, (c i).cond = false) : ZInv cfg g m' I R where
  s := by
    refine ho.s.swung hsw hat hc hc' ?_ ?_ (fun _ _ h => h)
    · intro b c p _ _ _ hb hp
      have hm : ∀ k, Under cfg (m.abs cfg) p k → Under cfg (m'.abs cfg) p k := fun k hk => ⟨hk.1, hmono k (hb.1.trans hk.1) hk.2⟩
      rcases hp with ⟨k1, k2, e1, e2, e3⟩ | ⟨k, e1, e2, k', e3, e4⟩ | ⟨h, pc, e1, e2⟩
      · exact Or.inl ⟨k1, k2, e1, hm _ e2, hm _ e3⟩
      · exact Or.inr (Or.inl ⟨k, e1, e2, k', e3, hm _ e4⟩)
      · exact Or.inr (Or.inr ⟨h, pc, e1, ((ho.r h pc e1).2.swung hi (ho.r h pc e1).1 hsw hat hc hret hcase).2 p hb e2⟩)
    · intro c p e
      exact ⟨fun hb => ((hnew c p e).1 hb).exW, (hnew c p e).2⟩
  r := fun h pc e => ⟨(ho.r h pc e).1, ((ho.r h pc e).2.swung hi (ho.r h pc e).1 hsw hat hc hret hcase).1⟩

/-! ### A cell is condemned -/

theorem LevelsZ.condemn {h : BitVec 64} {lv : List (Loc × Word)} (hl : LevelsZ g m h lv) {a : Nat} {c : Fin 16 → Word}
    {p : List (Fin 16)} (i : Fin 16) (hm : m.mem a = some (.inner c p))
    (hne : ∀ n, n < lv.length → g.length < n → pre h n = p ++ [i] → (c i).cond = false → False) :
    LevelsZ g (m.write (c i).condemn (.slot a i)).bump h lv := by
  have hw := write_condemn i hm
  generalize m.write (c i).condemn (.slot a i) = m1 at *
  induction lv with
  | nil => trivial
  | cons x rest ih =>
    obtain ⟨loc', w⟩ := x
    obtain ⟨⟨b, cb, h1, h2, h3⟩, h4⟩ := hl
    have hmem : m1.bump.mem = upd m.mem a (some (.inner (upd c i (c i).condemn) p)) := by rw [hw]; rfl
    have hroot : m1.bump.root = m.root := by rw [hw]; rfl
    refine ⟨?_, ih h4 (fun n hn => hne n (by simp; omega))⟩
    have hb : ∃ cb', m1.bump.mem b = some (.inner cb' (pre h rest.length)) := by
      rw [hmem]
      by_cases e : b = a
      · subst e; rw [hm] at h2; cases h2; exact ⟨_, upd_same _ _ _⟩
      · exact ⟨cb, by rw [upd_other _ _ e]; exact h2⟩
    obtain ⟨cb', hb⟩ := hb
    refine ⟨b, cb', h1, hb, ?_⟩
    intro hlt
    have h3 := h3 hlt
    cases loc' with
    | root => simpa only [Mem.At, hroot] using h3
    | slot a' i' =>
      obtain ⟨c', p', g1, g2, g3⟩ := h3
      by_cases e : a' = a
      · subst e
        rw [hm] at g1; cases g1
        refine ⟨_, p, by rw [hmem, upd_same], g2, ?_⟩
        rw [upd_other]
        · exact g3
        · intro e; subst e
          exact hne rest.length (by simp) hlt g2 (by rw [g3, h1])
      · exact ⟨c', p', by rw [hmem, upd_other _ _ e]; exact g1, g2, g3⟩

/-- A pruner condemns a cell. -/
theorem ZInv.condemn (ho : ZInv cfg g m I R) (hi : MemInv cfg A m) {a : Nat} {c : Fin 16 → Word} {p : List (Fin 16)} (i : Fin 16)
    (hm : m.mem a = some (.inner c p)) (hon : g <+: p → m.retired a = none → OnR R a ∨ (p = g ∧ ∀ j, (c j).cond = true)) :
    ZInv cfg g (m.write (c i).condemn (.slot a i)).bump I R := by
  cases hci : (c i).cond with
  | true => rw [write_frozen i hm hci]; exact ho.bump
  | false =>
    have hr : m.retired a = none := by
      cases e : m.retired a with
      | none => rfl
      | some τ => rw [hi.frozen a c p τ hm e i] at hci; cases hci
    have hon : g <+: p → OnR R a := by
      intro hg
      rcases hon hg hr with e | ⟨-, e⟩
      · exact e
      · rw [e i] at hci; cases hci
    have hexW := condemn_exW (cfg := cfg) (I := I) (R := R) i hm
    have hevo := Evo.condemn i hm
    have habs := abs_condemn (cfg := cfg) i hm
    have hw := write_condemn i hm
    have hlev : ∀ {h : BitVec 64} {lv}, LevelsZ g m h lv → (∀ n, n < lv.length → g.length < n → pre h n ≠ p ++ [i]) →
        LevelsZ g (m.write (c i).condemn (.slot a i)).bump h lv :=
      fun hl hne => hl.condemn i hm (fun n h1 h2 h3 _ => hne n h1 h2 h3)
    generalize m.write (c i).condemn (.slot a i) = m1 at *
    have habs' : m1.bump.abs cfg = m.abs cfg := by rw [← habs]; exact abs_mem rfl rfl
    have hmem : m1.bump.mem = upd m.mem a (some (.inner (upd c i (c i).condemn) p)) := by rw [hw]; rfl
    have hret : m1.bump.retired = m.retired := by rw [hw]; rfl
    have hroot : m1.bump.root = m.root := by rw [hw]; rfl
    refine ⟨⟨?_, ?_⟩, ?_⟩
    · intro b cb pb h1 h2 h3
      rw [hexW, habs']; rw [hret] at h2; rw [hmem] at h1
      by_cases e : b = a
      · subst e
        rw [upd_same] at h1; cases h1
        exact ho.s.two b c p hm h2 h3
      · rw [upd_other _ _ e] at h1; exact ho.s.two b cb pb h1 h2 h3
    · intro b cb pb j h1 h2 h3 h4
      rw [hret] at h2; rw [hmem] at h1
      by_cases e : b = a
      · subst e
        rw [upd_same] at h1; cases h1
        exact Or.inl (hon h3)
      · rw [upd_other _ _ e] at h1
        exact ho.s.clean b cb pb j h1 h2 h3 h4
    · intro h pc e
      obtain ⟨hg, hrem⟩ := ho.r h pc e
      refine ⟨hg, ?_⟩
      -- the removal remembers only cells above the node it is cleaning up
      have hnotin : ∀ n, g.length < n → n ≤ 16 → pre h n = p ++ [i] → OnR R a := by
        intro n h1 h16 h2
        exact hon (belowZ_cell.mp (h2 ▸ (below_pre hg h16).mpr h1))
      have hoff : pc.on = none → ∀ n, g.length < n → n ≤ 16 → pre h n ≠ p ++ [i] := by
        intro h0 n h1 h16 h2
        obtain ⟨h', pc', e1, e2⟩ := hnotin n h1 h16 h2
        rw [e] at e1; cases e1
        rw [h0] at e2; cases e2
      have honz : ∀ {parent child rest}, OnZ g m h parent child rest → pc.on = child.ptr → OnZ g m1.bump h parent child rest := by
        rintro parent child rest ⟨h1, h2, b, cb, rfl, h4, h5⟩ hpo
        have key : ∀ n, n ≤ rest.length → g.length < n → pre h n ≠ p ++ [i] := by
          intro n hn hgn e2
          obtain ⟨h', pc', e1, e3⟩ := hnotin n hgn (by omega) e2
          rw [e] at e1; cases e1
          rw [hpo] at e3
          cases e3
          rw [hm] at h4; cases h4
          have := congrArg List.length e2
          rw [List.length_append, pre_length _ (by omega), pre_length _ (by omega)] at this
          simp at this; omega
        obtain ⟨cb', f1, -⟩ := hevo.inner b cb _ h4
        refine ⟨hlev h1 (fun n hn => key n (by omega)), h2, b, cb', rfl, f1, ?_⟩
        intro e1 e2
        rw [hret] at e2
        have h8 := h5 e1 e2
        cases parent with
        | root => simpa only [Mem.At, hroot] using h8
        | slot b' j =>
          obtain ⟨cb, pb, g1, g2, g3⟩ := h8
          by_cases e3 : b' = a
          · subst e3
            rw [hm] at g1; cases g1
            refine ⟨_, p, by rw [hmem, upd_same], g2, ?_⟩
            rw [upd_other]
            · exact g3
            · intro e; subst e; exact key _ (Nat.le_refl _) e1 g2
          · exact ⟨cb, pb, by rw [hmem, upd_other _ _ e3]; exact g1, g2, g3⟩
      unfold RemZ at hrem ⊢
      split <;> simp only at hrem
      · have := hrem.len hi
        exact hlev hrem (fun n h1 h2 => hoff rfl n h2 (by omega))
      · have := hrem.len hi
        exact hlev hrem (fun n h1 h2 => hoff rfl n h2 (by omega))
      · have := hrem.1.len hi
        refine ⟨hlev hrem.1 (fun n h1 h2 => hoff rfl n h2 (by omega)), ?_⟩
        intro e1
        obtain ⟨b, cb, pb, f1, f2, f3, f4⟩ := hrem.2 e1
        have hcb : ∃ cb', m1.bump.mem b = some (.inner cb' pb) ∧ ∀ j, (cb' j).ptr = (cb j).ptr := by
          rw [hmem]
          by_cases e : b = a
          · subst e; rw [hm] at f2; cases f2
            refine ⟨_, upd_same _ _ _, fun j => ?_⟩
            by_cases e : j = i
            · subst e; rw [upd_same]; rfl
            · rw [upd_other _ _ e]
          · exact ⟨cb, by rw [upd_other _ _ e]; exact f2, fun _ => rfl⟩
        obtain ⟨cb', f5, f6⟩ := hcb
        refine ⟨b, cb', pb, f1, f5, ?_, ?_⟩
        · intro e; obtain ⟨j, g1, g2⟩ := f3 e; exact ⟨j, g1, by rw [f6]; exact g2⟩
        · intro e; obtain ⟨j, j', g1, g2, g3⟩ := f4 e; exact ⟨j, j', g1, by rw [f6]; exact g2, by rw [f6]; exact g3⟩
      · exact honz hrem rfl
      · exact honz hrem rfl
      · trivial

end
end Contrie
