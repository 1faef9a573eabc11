import Verif.Proof.SerialRem
/-
Executions in which removals do not overlap with each other (insertions may overlap with everything): the invariant and how changes
of the memory affect it.
-/
set_option linter.unusedSectionVars false
namespace Contrie
variable {K P : Type} [DecidableEq K]

/-- The node a removal in its clean-up phase is pruning. -/
def PC.on : PC K P → Option Nat
  | .prune _ child _ _ (.clean ..) => child.ptr
  | .pruneCas _ child _ (.clean ..) => child.ptr
  | _ => none

/-- Is the node the word points to (if any) still a part of the trie? -/
def liveBit (m : Mem P) (w : Word) : Nat :=
  match w.ptr with
  | some a => if m.retired a = none then 1 else 0
  | none => 0

/-- How many levels (counted from the root) the removal still has to look at. -/
def PC.todo (m : Mem P) : PC K P → Nat
  | .count _ _ _ _ rest _ _ => rest.length + 1
  | .prune _ child _ _ (.clean _ _ rest) => rest.length + liveBit m child
  | .pruneCas _ child _ (.clean _ _ rest) => rest.length + liveBit m child
  | _ => 0

/-- Necessary because of the keys present, or because of a pending insertion. -/
def Just (cfg : Config K P) (A : AMap K P) (I : K → Prop) (p : List (Fin 16)) : Prop :=
  Two cfg A p ∨ ∃ k, I k ∧ exTrav cfg A k p

/-- Exceptions: nodes made by pending insertions, and nodes the removal has not looked at yet. `I`: keys of pending insertions,
`R`: hash and program counter of the removal in progress. -/
def exW (cfg : Config K P) (m : Mem P) (I : K → Prop) (R : Option (BitVec 64 × PC K P)) : List (Fin 16) → Prop :=
  fun p => (∃ k, I k ∧ exTrav cfg (m.abs cfg) k p) ∨ ∃ h pc, R = some (h, pc) ∧ exRem h (pc.todo m) p

/-- Condemned cells: those of the node the removal is pruning. -/
def cdW (R : Option (BitVec 64 × PC K P)) : Nat → Fin 16 → Prop :=
  fun a _ => ∃ h pc, R = some (h, pc) ∧ pc.on = some a

/-- A cell of a node of the trie. -/
def LiveCell (m : Mem P) : Loc → Prop
  | .root => True
  | .slot a _ => m.retired a = none ∧ ∃ c p, m.mem a = some (.inner c p)

/-- A removal pruning a node. -/
def OnNode (m : Mem P) (h : BitVec 64) (parent : Loc) (child : Word) (rest : List (Loc × Word)) (n : Nat) (acc : PAcc) : Prop :=
  LevelsNow m h rest ∧ rest.length < 16 ∧ ∃ a c, child = ⟨some a, false, false⟩ ∧
    m.mem a = some (.inner c (pre h rest.length)) ∧ (m.retired a = none → m.At parent (pre h rest.length) child) ∧
    Acc2 m c n acc ∧ ∀ j : Fin 16, j.val < n → (c j).cond = true

/-- The removal in progress. -/
def RemPC (m : Mem P) (h : BitVec 64) : PC K P → Prop
  | .rem _ _ cur levels => LiveCell m cur ∧ LevelsNow m h levels
  | .remCas _ _ cur levels _ _ _ => LiveCell m cur ∧ LevelsNow m h levels
  | .count _ _ parent child rest i cnt => LevelsNow m h ((parent, child) :: rest) ∧ CountOK m child i.val cnt
  | .prune parent child i acc (.clean _ _ rest) => OnNode m h parent child rest i.val acc
  | .pruneCas parent child acc (.clean _ _ rest) => OnNode m h parent child rest 16 acc
  | _ => False

/-- An insertion that helps with pruning a node. -/
def Help (m : Mem P) (R : Option (BitVec 64 × PC K P)) (child : Word) (n : Nat) (acc : PAcc) : Prop :=
  ∃ a c q, child = ⟨some a, false, false⟩ ∧ m.mem a = some (.inner c q) ∧
    (m.retired a = none → ∃ h pc, R = some (h, pc) ∧ pc.on = some a) ∧ Acc2 m c n acc ∧
    ∀ j : Fin 16, j.val < n → (c j).cond = true

/-- An insertion in progress. -/
def HelpPC (m : Mem P) (R : Option (BitVec 64 × PC K P)) : PC K P → Prop
  | .prune _ child i acc (.trav ..) => Help m R child i.val acc
  | .pruneCas _ child acc (.trav ..) => Help m R child 16 acc
  | _ => True

/-- The invariant. -/
structure OInv (cfg : Config K P) (m : Mem P) (I : K → Prop) (R : Option (BitVec 64 × PC K P)) : Prop where
  s : SInv cfg m (exW cfg m I R) (cdW R)
  r : ∀ h pc, R = some (h, pc) → RemPC m h pc

/-- The invariant after a step of the removal. -/
def RemNext (cfg : Config K P) (m : Mem P) (I : K → Prop) (h : BitVec 64) : Next K P → Prop
  | .goto pc _ => OInv cfg m I (some (h, pc))
  | .ret _ _ => OInv cfg m I none
  | .fail _ => True

section
variable {cfg : Config K P} {A : Nat → AMap K P} {m m' : Mem P} {I : K → Prop} {R : Option (BitVec 64 × PC K P)}
  {loc : Loc} {q : List (Fin 16)} {w0 w' : Word} {new : Option (Node P)} {ret : Option Nat}

/-! ### Elementary facts -/

theorem Just.up {A : AMap K P} {q r : List (Fin 16)} (h : Just cfg A I r) (hqr : q <+: r) : Just cfg A I q := by
  rcases h with h | ⟨k, h1, h2, k', h3, h4⟩
  · exact Or.inl (h.up hqr)
  · exact Or.inr ⟨k, h1, hqr.trans h2, k', h3, hqr.trans h4.1, h4.2⟩

theorem Just.mono {A B : AMap K P} {q : List (Fin 16)} (h : Just cfg A I q) (hAB : ∀ k, A k ≠ none → B k ≠ none) :
    Just cfg B I q := by
  rcases h with h | ⟨k, h1, h2, k', h3, h4⟩
  · exact Or.inl (h.mono hAB)
  · exact Or.inr ⟨k, h1, h2, k', h3, h4.1, hAB _ h4.2⟩

theorem Just.under {A : AMap K P} {q : List (Fin 16)} (h : Just cfg A I q) : ∃ k, Under cfg A q k := by
  rcases h with ⟨k, -, -, h, -⟩ | ⟨-, -, -, k, -, h⟩ <;> exact ⟨k, h⟩

theorem exW.just {p : List (Fin 16)} (h : Two cfg (m.abs cfg) p ∨ exW cfg m I R p) :
    Just cfg (m.abs cfg) I p ∨ ∃ h pc, R = some (h, pc) ∧ exRem h (pc.todo m) p := by
  rcases h with h | h | h
  · exact Or.inl (Or.inl h)
  · exact Or.inl (Or.inr h)
  · exact Or.inr h

theorem Just.exW {p : List (Fin 16)} (h : Just cfg (m.abs cfg) I p) : Two cfg (m.abs cfg) p ∨ exW cfg m I R p := by
  rcases h with h | h
  · exact Or.inl h
  · exact Or.inr (Or.inl h)

/-- Change of the exceptions. -/
theorem SInv.change {ex ex' : List (Fin 16) → Prop} {cd cd' : Nat → Fin 16 → Prop} (h : SInv cfg m ex cd)
    (he : ∀ a c p, m.mem a = some (.inner c p) → m.retired a = none → Two cfg (m.abs cfg) p ∨ ex p →
      Two cfg (m.abs cfg) p ∨ ex' p)
    (hc : ∀ a i, m.retired a = none → cd a i → cd' a i) : SInv cfg m ex' cd' where
  two := fun a c p h1 h2 => he a c p h1 h2 (h.two a c p h1 h2)
  clean := fun a c p i h1 h2 h3 => hc a i h2 (h.clean a c p i h1 h2 h3)

/-- Inner child of a live node: it is necessary, or the removal has yet to look at it. -/
theorem OInv.child (hs : OInv cfg m I R) (h : MemInv cfg A m) {a : Nat} {c : Fin 16 → Word} {p : List (Fin 16)}
    (hm : m.mem a = some (.inner c p)) (hr : m.retired a = none) (j : Fin 16) (hp : (c j).ptr ≠ none)
    (hex : ∀ h pc, R = some (h, pc) → ¬ exRem h (pc.todo m) (p ++ [j])) :
    (∃ k, Under cfg (m.abs cfg) (p ++ [j]) k) ∧ ((c j).data = false → Just cfg (m.abs cfg) I p) := by
  have hat : m.At (.slot a j) (p ++ [j]) (c j) := ⟨c, p, hm, rfl, rfl⟩
  have hl : LiveLoc m (.slot a j) := hr
  cases hb : (c j).ptr with
  | none => exact absurd hb hp
  | some b =>
    cases hd : (c j).data with
    | true =>
      obtain ⟨l, h1, h2⟩ := (h.at_ok hat).of_data hb hd
      obtain ⟨x, hx⟩ := List.exists_mem_of_ne_nil l h2.ne
      exact ⟨⟨_, h.item_under hat hl hb hd h1 hx⟩, by intro e; cases e⟩
    | false =>
      obtain ⟨c', h1⟩ := (h.at_ok hat).of_inner hb hd
      have h2 : m.retired b = none := h.live _ _ b (h.live_follow hat hl) hb
      rcases exW.just (hs.s.two b c' _ h1 h2) with h3 | ⟨hh, pc, e1, e2⟩
      · exact ⟨h3.under, fun _ => h3.up (List.prefix_append _ _)⟩
      · exact absurd e2 (hex hh pc e1)

/-- Two non-null cells make a node necessary. -/
theorem OInv.cells_two (hs : OInv cfg m I R) (h : MemInv cfg A m) {a : Nat} {c : Fin 16 → Word} {p : List (Fin 16)}
    (hm : m.mem a = some (.inner c p)) (hr : m.retired a = none) {j j' : Fin 16} (hj : j ≠ j') (hp : (c j).ptr ≠ none)
    (hp' : (c j').ptr ≠ none) (hex : ∀ i h pc, R = some (h, pc) → ¬ exRem h (pc.todo m) (p ++ [i])) :
    Two cfg (m.abs cfg) p := by
  obtain ⟨⟨k, hk⟩, -⟩ := hs.child h hm hr j hp (hex j)
  obtain ⟨⟨k', hk'⟩, -⟩ := hs.child h hm hr j' hp' (hex j')
  exact ⟨k, k', under_ne hk hk' hj, ⟨(List.prefix_append _ _).trans hk.1, hk.2⟩,
    ⟨(List.prefix_append _ _).trans hk'.1, hk'.2⟩⟩

/-- A node that `prune` decides to keep is necessary. -/
theorem OInv.of_copy (hs : OInv cfg m I R) (hi : MemInv cfg A m) {a : Nat} {c : Fin 16 → Word} {p : List (Fin 16)}
    (hm : m.mem a = some (.inner c p)) (hr : m.retired a = none)
    (hex : ∀ i h pc, R = some (h, pc) → ¬ exRem h (pc.todo m) (p ++ [i])) {acc : PAcc} (h2 : Acc2 m c 16 acc)
    {cells : Fin 16 → Word} {r : PruneResult} (h : acc.decide = (.copy cells, r)) : Just cfg (m.abs cfg) I p := by
  obtain ⟨-, n1, n2⟩ := decide_copy h
  cases hac : acc.allowContract with
  | false =>
    obtain ⟨j, -, e2, e3⟩ := h2.inner hac
    exact (hs.child hi hm hr j e2 (hex j)).2 e3
  | true =>
    have h0 : acc.childCnt ≠ 0 := fun e => n2 ⟨e, h2.zero e⟩
    have h1 : acc.childCnt ≠ 1 := fun e => n1 ⟨hac, e, (h2.leaf hac (by omega)).1⟩
    rcases h2.two hac (by omega) with ⟨j, b, l, -, e1, e2, e3, e4⟩ | ⟨j, j', -, -, e1, e2, e3⟩
    · have hat : m.At (.slot a j) (p ++ [j]) (c j) := ⟨c, p, hm, rfl, rfl⟩
      have hl : LiveLoc m (.slot a j) := hr
      obtain ⟨l', g1, g2⟩ := (hi.at_ok hat).of_data e1 e2
      rw [e3] at g1; cases g1
      match l, e4, g2, e3 with
      | y1 :: y2 :: l, _, g2, e3 =>
        have hn := g2.nodup
        have u1 := hi.item_under hat hl e1 e2 e3 (x := y1) (by simp)
        have u2 := hi.item_under hat hl e1 e2 e3 (x := y2) (by simp)
        refine Or.inl ⟨cfg.key y1, cfg.key y2, ?_, ⟨(List.prefix_append _ _).trans u1.1, u1.2⟩,
          ⟨(List.prefix_append _ _).trans u2.1, u2.2⟩⟩
        intro e
        simp [e] at hn
    · exact Or.inl (hs.cells_two hi hm hr e1 e2 e3 hex)

/-- A cell that is not condemned is a part of the trie. -/
theorem MemInv.clean_live (h : MemInv cfg A m) (hat : m.At loc q w0) (hc : w0.cond = false) : LiveCell m loc := by
  cases loc with
  | root => trivial
  | slot a i =>
    obtain ⟨c, p, hm, rfl, rfl⟩ := hat
    refine ⟨?_, c, p, hm⟩
    cases hr : m.retired a with
    | none => rfl
    | some τ => rw [h.frozen a c p τ hm hr i] at hc; cases hc

theorem LiveCell.liveLoc (h : LiveCell m loc) : LiveLoc m loc := by
  cases loc with
  | root => trivial
  | slot a i => exact h.1

/-- A live cell is not condemned unless the removal is pruning the node. -/
theorem OInv.cell_clean (hs : OInv cfg m I R) (h : MemInv cfg A m) (hat : m.At loc q w0) (hl : LiveCell m loc)
    (hn : ∀ a i, loc = .slot a i → ¬ ∃ h pc, R = some (h, pc) ∧ pc.on = some a) : w0.cond = false := by
  cases loc with
  | root => obtain ⟨rfl, rfl⟩ := hat; exact h.rootClean
  | slot a i =>
    obtain ⟨c, p, hm, rfl, rfl⟩ := hat
    cases hc : (c i).cond with
    | false => rfl
    | true => exact absurd (hs.s.clean a c p i hm hl.1 hc) (hn a i rfl)

theorem Acc2.evo {c c' : Fin 16 → Word} {n : Nat} {acc : PAcc} (h : Acc2 m c n acc)
    (hd : ∀ b l, m.mem b = some (.data l) → m'.mem b = some (.data l)) (hc : ∀ j : Fin 16, j.val < n → c' j = c j) :
    Acc2 m' c' n acc where
  zero := h.zero
  inner := by
    intro h1; obtain ⟨j, e1, e2⟩ := h.inner h1
    exact ⟨j, e1, by rw [hc j e1]; exact e2⟩
  leaf := by
    intro h1 h2; obtain ⟨e0, j, e1, e2⟩ := h.leaf h1 h2
    exact ⟨e0, j, e1, by rw [hc j e1]; exact e2⟩
  two := by
    intro h1 h2
    rcases h.two h1 h2 with ⟨j, b, l, e0, e1, e2, e3, e4⟩ | ⟨j, j', e0, e0', e1, e2, e3⟩
    · exact Or.inl ⟨j, b, l, e0, by rw [hc j e0]; exact e1, by rw [hc j e0]; exact e2, hd b l e3, e4⟩
    · exact Or.inr ⟨j, j', e0, e0', e1, by rw [hc j e0]; exact e2, by rw [hc j' e0']; exact e3⟩

/-- Helpers are not disturbed by the others. -/
theorem Help.evo {R' : Option (BitVec 64 × PC K P)} {child : Word} {n : Nat} {acc : PAcc} (h : Help m R child n acc)
    (he : Evo m m') (hR : ∀ h pc a, R = some (h, pc) → pc.on = some a →
      m'.retired a ≠ none ∨ ∃ h' pc', R' = some (h', pc') ∧ pc'.on = some a) : Help m' R' child n acc := by
  obtain ⟨a, c, q, h1, h2, h3, h4, h5⟩ := h
  obtain ⟨c', g1, g2⟩ := he.inner a c q h2
  have hc : ∀ j : Fin 16, j.val < n → c' j = c j := fun j hj => g2 j (h5 j hj)
  refine ⟨a, c', q, h1, g1, ?_, h4.evo he.data hc, fun j hj => by rw [hc j hj]; exact h5 j hj⟩
  intro hr
  have hr0 : m.retired a = none := by
    cases e : m.retired a with
    | none => rfl
    | some τ => rw [he.retOld a τ e] at hr; cases hr
  obtain ⟨hh, pc, e1, e2⟩ := h3 hr0
  rcases hR hh pc a e1 e2 with e | e
  · exact absurd hr e
  · exact e

theorem HelpPC.evo {R' : Option (BitVec 64 × PC K P)} {pc : PC K P} (h : HelpPC m R pc) (he : Evo m m')
    (hR : ∀ h pc a, R = some (h, pc) → pc.on = some a →
      m'.retired a ≠ none ∨ ∃ h' pc', R' = some (h', pc') ∧ pc'.on = some a) : HelpPC m' R' pc := by
  unfold HelpPC at h ⊢
  split <;> simp only at h
  · exact Help.evo h he hR
  · exact Help.evo h he hR
  · trivial

/-! ### Nothing relevant changed -/

theorem LiveCell.same (h : LiveCell m loc) (hm : m'.mem = m.mem) (ht : m'.retired = m.retired) : LiveCell m' loc := by
  cases loc with
  | root => trivial
  | slot a i => simp only [LiveCell, hm, ht] at h ⊢; exact h

theorem CountOK.same {w : Word} {n cnt : Nat} (h : CountOK m w n cnt) (hm : m'.mem = m.mem) : CountOK m' w n cnt := by
  simp only [CountOK, hm] at h ⊢; exact h

theorem OnNode.same {h : BitVec 64} {parent : Loc} {child : Word} {rest : List (Loc × Word)} {n : Nat} {acc : PAcc}
    (ho : OnNode m h parent child rest n acc) (hm : m'.mem = m.mem) (hr : m'.root = m.root) (ht : m'.retired = m.retired) :
    OnNode m' h parent child rest n acc := by
  obtain ⟨h1, h2, a, c, h3, h4, h5, h6, h7⟩ := ho
  refine ⟨h1.same hm hr, h2, a, c, h3, by rw [hm]; exact h4, ?_, h6.evo (by intro b l; rw [hm]; exact id) (fun _ _ => rfl), h7⟩
  intro e; rw [ht] at e; exact At_same hm hr (h5 e)

theorem RemPC.same {h : BitVec 64} {pc : PC K P} (ho : RemPC m h pc) (hm : m'.mem = m.mem) (hr : m'.root = m.root)
    (ht : m'.retired = m.retired) : RemPC m' h pc := by
  unfold RemPC at ho ⊢
  split <;> simp only at ho
  · exact ⟨ho.1.same hm ht, ho.2.same hm hr⟩
  · exact ⟨ho.1.same hm ht, ho.2.same hm hr⟩
  · exact ⟨ho.1.same hm hr, ho.2.same hm⟩
  · exact ho.same hm hr ht
  · exact ho.same hm hr ht

theorem todo_same {pc : PC K P} (ht : m'.retired = m.retired) : pc.todo m' = pc.todo m := by
  unfold PC.todo liveBit
  rw [ht]

theorem exW_same (hm : m'.mem = m.mem) (hr : m'.root = m.root) (ht : m'.retired = m.retired) :
    exW cfg m' I R = exW cfg m I R := by
  funext p
  simp only [exW, abs_mem hm hr, todo_same ht]

theorem OInv.same (h : OInv cfg m I R) (hm : m'.mem = m.mem) (hr : m'.root = m.root) (ht : m'.retired = m.retired) :
    OInv cfg m' I R where
  s := by rw [exW_same hm hr ht]; exact h.s.same hm hr ht
  r := fun hh pc e => (h.r hh pc e).same hm hr ht

theorem OInv.bump (h : OInv cfg m I R) : OInv cfg m.bump I R := h.same rfl rfl rfl

/-- The pending insertions change. -/
theorem OInv.setI {I' : K → Prop} (h : OInv cfg m I R) (hI : ∀ k, I k → I' k ∨ m.abs cfg k ≠ none) : OInv cfg m I' R where
  s := by
    refine h.s.change ?_ (fun _ _ _ h => h)
    intro a c p _ _ hp
    rcases hp with hp | ⟨k, h1, h2, k', h3, h4⟩ | hp
    · exact Or.inl hp
    · rcases hI k h1 with e | e
      · exact Or.inr (Or.inl ⟨k, e, h2, k', h3, h4⟩)
      · exact Or.inl ⟨k', k, h3, h4, h2, e⟩
    · exact Or.inr (Or.inr hp)
  r := h.r

/-- A removal starts. -/
theorem OInv.startR {h : BitVec 64} {key : K} {shift : Nat} (ho : OInv cfg m I none) :
    OInv cfg m I (some (h, .rem key shift .root [])) where
  s := by
    refine ho.s.change ?_ ?_
    · rintro a c p - - (hp | hp | ⟨h, pc, e, -⟩)
      · exact Or.inl hp
      · exact Or.inr (Or.inl hp)
      · cases e
    · rintro a i - ⟨h, pc, e, -⟩; cases e
  r := by rintro h' pc e; cases e; exact ⟨trivial, trivial⟩

/-! ### A leaf changes -/

theorem LevelsNow.leaf {h : BitVec 64} {lv : List (Loc × Word)} (hl : LevelsNow m h lv)
    (hsw : Swung m m' loc w' new ret) (hat : m.At loc q w0) (hlf : w0.isLeaf) : LevelsNow m' h lv := by
  induction lv with
  | nil => trivial
  | cons x rest ih =>
    obtain ⟨loc', w⟩ := x
    obtain ⟨⟨a, c, h1, h2, h3⟩, h4⟩ := hl
    refine ⟨⟨a, _, h1, hsw.node a c _ h2, hsw.at_other h3 ?_⟩, ih h4⟩
    intro e
    subst e
    obtain ⟨-, rfl⟩ := At_unique hat h3
    subst h1
    rcases hlf with e | e <;> cases e

/-- What a retired data node is not. -/
theorem ret_ne (h : MemInv cfg A m) (hat : m.At loc q w0) (hlf : w0.isLeaf) (hret : ∀ a, ret = some a → w0.ptr = some a)
    {b : Nat} {c : Fin 16 → Word} {p : List (Fin 16)} (hm : m.mem b = some (.inner c p)) : ret ≠ some b := by
  intro e
  have hp := hret b e
  rcases hlf with e2 | e2
  · rw [hp] at e2; cases e2
  · obtain ⟨l, h1, -⟩ := (h.at_ok hat).of_data hp e2
    rw [hm] at h1; cases h1

theorem RemPC.leaf {h : BitVec 64} {pc : PC K P} (ho : RemPC m h pc) (hi : MemInv cfg A m)
    (hsw : Swung m m' loc w' new ret) (hat : m.At loc q w0) (hc : w0.cond = false) (hlf : w0.isLeaf) (hw' : w'.ptr ≠ none)
    (hret : ∀ a, ret = some a → w0.ptr = some a) : RemPC m' h pc ∧ pc.todo m' = pc.todo m := by
  have hretd : ∀ b c p, m.mem b = some (.inner c p) → m'.retired b = m.retired b := by
    intro b c p hm
    rw [hsw.retired, if_neg (ret_ne hi hat hlf hret hm)]
  have hlive : ∀ {l}, LiveCell m l → LiveCell m' l := by
    intro l hl
    cases l with
    | root => trivial
    | slot b i =>
      obtain ⟨h1, c, p, h2⟩ := hl
      exact ⟨by rw [hretd b c p h2]; exact h1, _, p, hsw.node b c p h2⟩
  have hon : ∀ {parent : Loc} {child : Word} {rest : List (Loc × Word)} {n : Nat} {acc : PAcc},
      OnNode m h parent child rest n acc → OnNode m' h parent child rest n acc ∧ liveBit m' child = liveBit m child := by
    rintro parent child rest n acc ⟨h1, h2, a, c, rfl, h4, h5, h6, h7⟩
    have hc' : ∀ j : Fin 16, j.val < n → (if loc = .slot a j then w' else c j) = c j := by
      intro j hj
      split
      · next e =>
        subst e
        obtain ⟨c2, p2, g1, -, g3⟩ := hat
        rw [h4] at g1; cases g1
        rw [← g3, h7 j hj] at hc; cases hc
      · rfl
    refine ⟨⟨h1.leaf hsw hat hlf, h2, a, _, rfl, hsw.node a c _ h4, ?_, h6.evo hsw.data hc', ?_⟩, ?_⟩
    · intro e
      rw [hretd a c _ h4] at e
      refine hsw.at_other (h5 e) ?_
      intro e2; subst e2
      obtain ⟨-, rfl⟩ := At_unique hat (h5 e)
      rcases hlf with e | e <;> cases e
    · intro j hj; rw [hc' j hj]; exact h7 j hj
    · simp only [liveBit, hretd a c _ h4]
  unfold RemPC at ho ⊢
  split <;> simp only at ho
  · exact ⟨⟨hlive ho.1, ho.2.leaf hsw hat hlf⟩, rfl⟩
  · exact ⟨⟨hlive ho.1, ho.2.leaf hsw hat hlf⟩, rfl⟩
  · refine ⟨⟨ho.1.leaf hsw hat hlf, ?_⟩, rfl⟩
    obtain ⟨a, c, p, h1, h2, h3, h4⟩ := ho.2
    have hc' : ∀ j, (c j).ptr ≠ none → (if loc = .slot a j then w' else c j).ptr ≠ none := by
      intro j hj; split
      · exact hw'
      · exact hj
    refine ⟨a, _, p, h1, hsw.node a c p h2, ?_, ?_⟩
    · intro e; obtain ⟨j, e1, e2⟩ := h3 e; exact ⟨j, e1, hc' j e2⟩
    · intro e; obtain ⟨j, j', e1, e2, e3⟩ := h4 e; exact ⟨j, j', e1, hc' j e2, hc' j' e3⟩
  · obtain ⟨h1, h2⟩ := hon ho; exact ⟨h1, by simp only [PC.todo, h2]⟩
  · obtain ⟨h1, h2⟩ := hon ho; exact ⟨h1, by simp only [PC.todo, h2]⟩

/-- An insertion replaces a leaf. -/
theorem OInv.leaf (ho : OInv cfg m I R) (hi : MemInv cfg A m)
    (hsw : Swung m m' loc w' new ret) (hat : m.At loc q w0) (hc : w0.cond = false) (hlf : w0.isLeaf) (hw' : w'.ptr ≠ none)
    (hc' : w'.cond = false)
    (hret : ∀ a, ret = some a → w0.ptr = some a) (hmono : ∀ k, m.abs cfg k ≠ none → m'.abs cfg k ≠ none)
    (hnew : ∀ c p, new = some (.inner c p) → Just cfg (m'.abs cfg) I p ∧ ∀ i, (c i).cond = false) : OInv cfg m' I R where
  s := by
    refine ho.s.swung hsw hc' ?_ ?_ (fun _ _ _ h => h)
    · intro b c p _ _ _ hp
      rcases exW.just hp with hp | ⟨h, pc, e1, e2⟩
      · exact (hp.mono hmono).exW
      · refine Or.inr (Or.inr ⟨h, pc, e1, ?_⟩)
        rw [((ho.r h pc e1).leaf hi hsw hat hc hlf hw' hret).2]; exact e2
    · intro c p e
      exact ⟨(hnew c p e).1.exW, (hnew c p e).2⟩
  r := fun h pc e => ((ho.r h pc e).leaf hi hsw hat hc hlf hw' hret).1

/-! ### A cell is condemned -/

theorem write_frozen {a : Nat} {c : Fin 16 → Word} {p : List (Fin 16)} (i : Fin 16) (hm : m.mem a = some (.inner c p))
    (hc : (c i).cond = true) : m.write (c i).condemn (.slot a i) = m := by
  have h1 : (c i).condemn = c i := by cases h : c i; simp_all [Word.condemn]
  have h2 : upd c i (c i).condemn = c := by
    funext j
    by_cases e : j = i
    · subst e; rw [upd_same, h1]
    · rw [upd_other _ _ e]
  rw [write_condemn i hm, h2]
  have : upd m.mem a (some (.inner c p)) = m.mem := by
    funext b
    by_cases e : b = a
    · subst e; rw [upd_same, hm]
    · rw [upd_other _ _ e]
  rw [this]

theorem SInv.condemnW {a : Nat} {c : Fin 16 → Word} {p : List (Fin 16)} (i : Fin 16) {ex : List (Fin 16) → Prop}
    (hs : SInv cfg m ex (cdW R)) (hm : m.mem a = some (.inner c p))
    (hon : ∃ h pc, R = some (h, pc) ∧ pc.on = some a) :
    SInv cfg (m.write (c i).condemn (.slot a i)).bump ex (cdW R) := by
  have hw := write_condemn i hm
  have habs := abs_condemn (cfg := cfg) i hm
  generalize m.write (c i).condemn (.slot a i) = m1 at *
  have habs' : m1.bump.abs cfg = m.abs cfg := by rw [← habs]; exact abs_mem rfl rfl
  have hmem : m1.bump.mem = upd m.mem a (some (.inner (upd c i (c i).condemn) p)) := by rw [hw]; rfl
  have hret : m1.bump.retired = m.retired := by rw [hw]; rfl
  constructor
  · intro b cb pb h1 h2
    rw [habs']; rw [hret] at h2; rw [hmem] at h1
    by_cases e : b = a
    · subst e
      rw [upd_same] at h1; cases h1
      exact hs.two b c p hm h2
    · rw [upd_other _ _ e] at h1; exact hs.two b cb pb h1 h2
  · intro b cb pb j h1 h2 h3
    rw [hret] at h2; rw [hmem] at h1
    by_cases e : b = a
    · subst e; exact hon
    · rw [upd_other _ _ e] at h1
      exact hs.clean b cb pb j h1 h2 h3

theorem condemn_exW {a : Nat} {c : Fin 16 → Word} {p : List (Fin 16)} (i : Fin 16)
    (hm : m.mem a = some (.inner c p)) : exW cfg (m.write (c i).condemn (.slot a i)).bump I R = exW cfg m I R := by
  have hw := write_condemn i hm
  have habs := abs_condemn (cfg := cfg) i hm
  generalize m.write (c i).condemn (.slot a i) = m1 at *
  have habs' : m1.bump.abs cfg = m.abs cfg := by rw [← habs]; exact abs_mem rfl rfl
  have hret : m1.bump.retired = m.retired := by rw [hw]; rfl
  funext q
  simp only [exW, habs', todo_same hret]

/-- A cell of the node being pruned is condemned; `n` cells done. -/
theorem OnNode.condemn {h : BitVec 64} {parent : Loc} {child : Word} {rest : List (Loc × Word)} {n : Nat} {acc : PAcc}
    (ho : OnNode m h parent child rest n acc) {a : Nat} {c : Fin 16 → Word} {p : List (Fin 16)} (i : Fin 16)
    (hm : m.mem a = some (.inner c p)) (ha : child.ptr = some a) :
    OnNode (m.write (c i).condemn (.slot a i)).bump h parent child rest n acc := by
  obtain ⟨h1, h2, a', c', rfl, h4, h5, h6, h7⟩ := ho
  cases ha
  rw [hm] at h4; cases h4
  have hlen : (pre h rest.length).length = rest.length := pre_length _ (by omega)
  have he := Evo.condemn i hm
  have hl := h1.condemn i hm (by omega) (by rw [hlen]; omega)
  have hw := write_condemn i hm
  generalize m.write (c i).condemn (.slot a i) = m1 at *
  have hmem : m1.bump.mem = upd m.mem a (some (.inner (upd c i (c i).condemn) (pre h rest.length))) := by rw [hw]; rfl
  have hret : m1.bump.retired = m.retired := by rw [hw]; rfl
  have hroot : m1.bump.root = m.root := by rw [hw]; rfl
  have hc' : ∀ j : Fin 16, j.val < n → upd c i (c i).condemn j = c j := by
    intro j hj
    by_cases e : j = i
    · subst e
      rw [upd_same]
      have := h7 j hj
      cases hcj : c j; simp_all [Word.condemn]
    · rw [upd_other _ _ e]
  refine ⟨hl, h2, a, _, rfl, by rw [hmem, upd_same], ?_, h6.evo he.data hc', fun j hj => by rw [hc' j hj]; exact h7 j hj⟩
  intro e
  rw [hret] at e
  have h8 := h5 e
  cases parent with
  | root => simpa only [Mem.At, hroot] using h8
  | slot b j =>
    obtain ⟨cb, pb, g1, g2, g3⟩ := h8
    have hne : b ≠ a := by
      intro e2; subst e2
      rw [hm] at g1; cases g1
      have := congrArg List.length g2
      simp at this
    exact ⟨cb, pb, by rw [hmem, upd_other _ _ hne]; exact g1, g2, g3⟩

/-- A helper condemns a cell. -/
theorem OInv.condemn (ho : OInv cfg m I R) (hi : MemInv cfg A m) {a : Nat} {c : Fin 16 → Word} {p : List (Fin 16)} (i : Fin 16)
    (hm : m.mem a = some (.inner c p)) (hon : m.retired a = none → ∃ h pc, R = some (h, pc) ∧ pc.on = some a) :
    OInv cfg (m.write (c i).condemn (.slot a i)).bump I R := by
  cases hr : m.retired a with
  | some τ =>
    rw [write_frozen i hm (hi.frozen a c p τ hm hr i)]
    exact ho.bump
  | none =>
    have hon := hon hr
    refine ⟨by rw [condemn_exW i hm]; exact ho.s.condemnW i hm hon, ?_⟩
    obtain ⟨h, pc, e1, e2⟩ := hon
    intro h' pc' e
    rw [e1] at e; cases e
    have h2 := ho.r h pc e1
    unfold RemPC at h2 ⊢
    unfold PC.on at e2
    split at e2
    · exact OnNode.condemn h2 i hm e2
    · exact OnNode.condemn h2 i hm e2
    · cases e2

end
end Contrie
