import Verif.Model.Weak
import Verif.Proof.PCInv
/-
Invariants of the weak memory machine.
-/
set_option linter.unusedSectionVars false
namespace Contrie
variable {K P : Type} [DecidableEq K]

/-! ### Memory -/

/-- The initial contents of the nodes as a memory. -/
def WMem.ideal (M : WMem P) : Mem P where
  root := Word.null
  mem := M.nodes
  next := M.next
  retired := fun _ => none
  freed := fun _ => false
  clock := M.clock

/-- A set of nodes is a possible knowledge. -/
structure ViewOK (M : WMem P) (V : Nat → Prop) : Prop where
  alloc : ∀ a, V a → M.nodes a ≠ none
  closed : ∀ a c p i b, V a → M.nodes a = some (.inner c p) → (c i).ptr = some b → V b

theorem ViewOK.empty (M : WMem P) : ViewOK M (fun _ => False) := ⟨fun _ h => h.elim, fun _ _ _ _ _ h => h.elim⟩

theorem ViewOK.union {M : WMem P} {V V' : Nat → Prop} (h : ViewOK M V) (h' : ViewOK M V') :
    ViewOK M (fun a => V a ∨ V' a) :=
  ⟨fun a ha => ha.elim (h.alloc a) (h'.alloc a),
   fun a c p i b ha hn hp => ha.elim (fun x => Or.inl (h.closed a c p i b x hn hp))
     (fun x => Or.inr (h'.closed a c p i b x hn hp))⟩

theorem ViewOK.reach {M : WMem P} {V : Nat → Prop} (h : ViewOK M V) {a b : Nat} (hr : M.Reach a b) (ha : V a) : V b := by
  induction hr with
  | refl => exact ha
  | step a c p i b d hn hp _ ih => exact ih (h.closed a c p i b ha hn hp)

theorem WMem.Reach.trans {M : WMem P} {a b d : Nat} (h : M.Reach a b) (h' : M.Reach b d) : M.Reach a d := by
  induction h with
  | refl => exact h'
  | step a c p i b e hn hp _ ih => exact .step a c p i b d hn hp (ih h')

/-- A message is fit for its location. -/
structure MsgOK (cfg : Config K P) (M : WMem P) (loc : Loc) (msg : Msg) : Prop where
  typed : ∃ q, LocAt M.ideal 0 loc q ∧ WordOK cfg M.ideal msg.word q
  known : ∀ b, msg.word.ptr = some b → msg.view b
  view : ViewOK M msg.view
  clean : loc = .root → msg.word.cond = false

/-- The memory invariant. -/
structure WMemInv (cfg : Config K P) (M : WMem P) : Prop where
  fresh : ∀ a, M.nodes a ≠ none → a < M.next
  nodeOK : ∀ a c p, M.nodes a = some (.inner c p) → p.length < 16 ∧
    ∀ i, WordOK cfg M.ideal (c i) (p ++ [i])
  msgOK : ∀ loc msg, M.msgs loc msg → MsgOK cfg M loc msg

theorem WMemInv.next_none {cfg : Config K P} {M : WMem P} (h : WMemInv cfg M) : M.nodes M.next = none := by
  cases hn : M.nodes M.next with
  | none => rfl
  | some n => exact absurd (h.fresh M.next (by rw [hn]; simp)) (Nat.lt_irrefl _)

theorem LocAt.unique {m : Mem P} {s : Nat} {loc : Loc} {q q' : List (Fin 16)} (h : LocAt m s loc q) (h' : LocAt m s loc q') :
    q = q' := by
  cases loc with
  | root => exact h.trans h'.symm
  | slot a i =>
    obtain ⟨c, p, h1, h2, -⟩ := h
    obtain ⟨c', p', h1', h2', -⟩ := h'
    rw [h1] at h1'; cases h1'; rw [h2, h2']

theorem held_ideal {M : WMem P} {a : Nat} (h : M.nodes a ≠ none) : Held M.ideal 0 a :=
  ⟨h, fun τ hr => by cases hr⟩

theorem Loc.node_slot {loc : Loc} {a : Nat} (h : loc.node = some a) : ∃ i, loc = .slot a i := by
  cases loc with
  | root => cases h
  | slot b i => cases h; exact ⟨i, rfl⟩

/-- What a load of a known location returns. -/
theorem WMemInv.readable {cfg : Config K P} {M : WMem P} (h : WMemInv cfg M) {loc : Loc} {msg : Msg} {q : List (Fin 16)}
    (hq : LocAt M.ideal 0 loc q) (hr : M.Readable loc msg) :
    WordOK cfg M.ideal msg.word q ∧ ViewOK M msg.view ∧ (loc = .root → msg.word.cond = false) ∧
    ∀ b V, msg.word.ptr = some b → ViewOK M V → (∀ a, loc.node = some a → V a) → V b ∨ msg.view b := by
  rcases hr with hr | ⟨hv, hr⟩
  · have hm := h.msgOK loc msg hr
    obtain ⟨q', h1, h2⟩ := hm.typed
    rw [hq.unique h1]
    exact ⟨h2, hm.view, hm.clean, fun b V hb _ _ => Or.inr (hm.known b hb)⟩
  · cases loc with
    | root =>
      simp only at hr
      rw [hr, hv]
      exact ⟨WordOK.null _ _ _, ViewOK.empty M, fun _ => rfl, fun b V hb => by cases hb⟩
    | slot a i =>
      simp only at hr
      obtain ⟨c, p, hn, hw⟩ := hr
      obtain ⟨c', p', hn', rfl, -⟩ := hq
      have hn'' : M.nodes a = some (.inner c' p') := hn'
      rw [hn] at hn''; cases hn''
      rw [hw, hv]
      exact ⟨(h.nodeOK a c p hn).2 i, ViewOK.empty M, (fun e => by cases e),
        fun b V hb hV hl => Or.inl (hV.closed a c p i b (hl a rfl) hn hb)⟩

/-! ### Growth -/

/-- A node created in a step is fit to be published by a thread which knows `Kn`. -/
def GoodNew (cfg : Config K P) (M : WMem P) (Kn : Nat → Prop) (new : Option (Node P)) : Prop :=
  ∀ c p, new = some (.inner c p) → p.length < 16 ∧
    ∀ i, WordOK cfg M.ideal (c i) (p ++ [i]) ∧ ∀ b, (c i).ptr = some b → Kn b

theorem after_nodes {M : WMem P} {new : Option (Node P)} {st : Option (Loc × Msg)} (h : M.nodes M.next = none) {a : Nat}
    {n : Node P} (ha : M.nodes a = some n) : (M.after new st).nodes a = some n := by
  cases new with
  | none => exact ha
  | some x =>
    have : a ≠ M.next := by intro e; rw [e, h] at ha; cases ha
    simp [WMem.after, upd_other _ _ this, ha]

theorem after_new {M : WMem P} {new : Option (Node P)} {st : Option (Loc × Msg)} {a : Nat}
    {n : Node P} (ha : (M.after new st).nodes a = some n) :
    M.nodes a = some n ∨ (new = some n ∧ a = M.next) := by
  cases new with
  | none => exact Or.inl ha
  | some x =>
    by_cases e : a = M.next
    · right; subst e; simp [WMem.after] at ha; exact ⟨by rw [ha], rfl⟩
    · left; simpa [WMem.after, upd_other _ _ e] using ha

theorem after_evo {M : WMem P} (new : Option (Node P)) (st : Option (Loc × Msg)) (h : M.nodes M.next = none) :
    Evo M.ideal (M.after new st).ideal where
  data := fun _ _ ha => after_nodes (st := st) h ha
  inner := fun _ c _ ha => ⟨c, after_nodes (st := st) h ha, fun _ _ => rfl⟩
  retOld := fun _ _ h => h
  retNew := fun _ _ _ h => by cases h
  clock := rfl

theorem ViewOK.after {M : WMem P} {V : Nat → Prop} (hV : ViewOK M V) (new : Option (Node P)) (st : Option (Loc × Msg))
    (h : M.nodes M.next = none) : ViewOK (M.after new st) V where
  alloc := by
    intro a ha
    cases hn : M.nodes a with
    | none => exact absurd hn (hV.alloc a ha)
    | some n => rw [after_nodes h hn]; simp
  closed := by
    intro a c p i b ha hn hp
    rcases after_new hn with h1 | ⟨-, h1⟩
    · exact hV.closed a c p i b ha h1 hp
    · exact absurd (h1 ▸ h) (hV.alloc a ha)

/-- The creator of a node knows it. -/
theorem ViewOK.add_new {cfg : Config K P} {M : WMem P} {V : Nat → Prop} (hV : ViewOK M V) {new : Option (Node P)}
    (st : Option (Loc × Msg)) (h : M.nodes M.next = none) (hn : GoodNew cfg M V new) :
    ViewOK (M.after new st) (fun a => V a ∨ new.isSome = true ∧ a = M.next) where
  alloc := by
    rintro a (ha | ⟨hs, rfl⟩)
    · exact (hV.after new st h).alloc a ha
    · cases new with
      | none => cases hs
      | some x => simp [WMem.after]
  closed := by
    rintro a c p i b ha hna hp
    rcases after_new hna with h1 | ⟨h1, h2⟩
    · rcases ha with ha | ⟨-, rfl⟩
      · exact Or.inl (hV.closed a c p i b ha h1 hp)
      · rw [h] at h1; cases h1
    · exact Or.inl (((hn c p h1).2 i).2 b hp)

theorem MsgOK.after {cfg : Config K P} {M : WMem P} {loc : Loc} {msg : Msg} (hm : MsgOK cfg M loc msg)
    (new : Option (Node P)) (st : Option (Loc × Msg)) (h : M.nodes M.next = none) :
    MsgOK cfg (M.after new st) loc msg := by
  obtain ⟨q, h1, h2⟩ := hm.typed
  exact ⟨⟨q, h1.evo (after_evo new st h) (Nat.zero_le _), h2.evo (after_evo new st h)⟩, hm.known,
    hm.view.after new st h, hm.clean⟩

theorem WMemInv.after {cfg : Config K P} {M : WMem P} (h : WMemInv cfg M) {Kn : Nat → Prop} {new : Option (Node P)}
    {st : Option (Loc × Msg)} (hn : GoodNew cfg M Kn new)
    (hst : ∀ loc msg, st = some (loc, msg) → MsgOK cfg (M.after new st) loc msg) : WMemInv cfg (M.after new st) where
  fresh := by
    intro a ha
    cases hn' : (M.after new st).nodes a with
    | none => exact absurd hn' ha
    | some n =>
      rcases after_new hn' with h1 | ⟨h1, h2⟩
      · have := h.fresh a (by rw [h1]; simp)
        simp only [WMem.after]; split <;> omega
      · subst h2; simp [WMem.after, h1]
  nodeOK := by
    intro a c p ha
    rcases after_new ha with h1 | ⟨h1, h2⟩
    · obtain ⟨h3, h4⟩ := h.nodeOK a c p h1
      exact ⟨h3, fun i => (h4 i).evo (after_evo new st h.next_none)⟩
    · obtain ⟨h3, h4⟩ := hn c p h1
      exact ⟨h3, fun i => (h4 i).1.evo (after_evo new st h.next_none)⟩
  msgOK := by
    rintro loc msg (hm | hm)
    · exact (h.msgOK loc msg hm).after new st h.next_none
    · exact hst loc msg hm

/-! ### Threads -/

/-- What the marking loop of `prune` has collected is fit for the node at path `q`. -/
structure WAccOK (cfg : Config K P) (m : Mem P) (q : List (Fin 16)) (acc : PAcc) : Prop where
  cells : ∀ j, WordOK cfg m (acc.newChild j) (q ++ [j])
  leaf : ∀ w, acc.lastLeaf = some w → w.cond = false ∧ w.data = true ∧ ∃ b l i, w.ptr = some b ∧
    m.mem b = some (.data l) ∧ DataOK cfg l (q ++ [i]) ∧ l.length ≤ acc.childCnt

theorem WAccOK.evo {cfg : Config K P} {m m' : Mem P} {q : List (Fin 16)} {acc : PAcc} (h : WAccOK cfg m q acc)
    (he : Evo m m') : WAccOK cfg m' q acc where
  cells := fun j => (h.cells j).evo he
  leaf := by
    intro w hw
    obtain ⟨h1, h2, b, l, i, h3, h4, h5, h6⟩ := h.leaf w hw
    exact ⟨h1, h2, b, l, i, h3, he.data b l h4, h5, h6⟩

theorem WAccOK.init (cfg : Config K P) (m : Mem P) (q : List (Fin 16)) : WAccOK cfg m q PAcc.init :=
  ⟨fun _ => WordOK.null _ _ _, fun _ h => by cases h⟩

/-- `prune` at work. -/
def WPruneAt (cfg : Config K P) (m : Mem P) (parent : Loc) (child : Word) (acc : PAcc) : Prop :=
  ∃ a c q, child = ⟨some a, false, false⟩ ∧ m.mem a = some (.inner c q) ∧ LocAt m 0 parent q ∧ WAccOK cfg m q acc

theorem WPruneAt.evo {cfg : Config K P} {m m' : Mem P} {parent : Loc} {child : Word} {acc : PAcc}
    (h : WPruneAt cfg m parent child acc) (he : Evo m m') : WPruneAt cfg m' parent child acc := by
  obtain ⟨a, c, q, h1, h2, h3, h4⟩ := h
  obtain ⟨c', hc', -⟩ := he.inner a c q h2
  exact ⟨a, c', q, h1, hc', h3.evo he (Nat.zero_le _), h4.evo he⟩

/-- The invariant of a call in progress under weak memory. -/
def WPCInv (cfg : Config K P) (m : Mem P) (c : Call K P) : Prop :=
  match c.pc with
  | .get key hash cur => ∃ d, d ≤ 16 ∧ hash = cfg.hash key >>> (LEVEL_BITS * d) ∧
      LocAt m 0 cur (pre (cfg.hash key) d)
  | .isEmpty => True
  | .iterNew => True
  | .iterNext lv _ => ∃ qs, StackOK cfg m 0 lv qs
  | .trav st hash mode shift cur parent => ∃ d, shift = LEVEL_BITS * d ∧
      TravAt cfg m 0 c.req c.calls st hash mode d cur parent
  | .travCas st hash mode shift cur parent node new kind => ∃ d, shift = LEVEL_BITS * d ∧
      TravAt cfg m 0 c.req c.calls st hash mode d cur parent ∧ CasOK cfg m 0 st hash mode d node new kind
  | .rem key shift cur levels => c.req = .op (.remove key) ∧ c.calls = 0 ∧ ∃ d, shift = LEVEL_BITS * d ∧
      RemAt cfg m 0 key d cur levels
  | .remCas key shift cur levels node new deleted => c.req = .op (.remove key) ∧ c.calls = 0 ∧
      ∃ d a items, shift = LEVEL_BITS * d ∧ RemAt cfg m 0 key d cur levels ∧ node = ⟨some a, false, true⟩ ∧
        Held m 0 a ∧ m.mem a = some (.data items) ∧ DataOK cfg items (pre (cfg.hash key) d) ∧
        new = items.filter (fun l => decide (cfg.key l ≠ key)) ∧ deleted ∈ items
  | .count deleted ref parent child rest _ _ => (∃ k, c.req = .op (.remove k)) ∧ c.calls = 0 ∧
      CleanOK m 0 deleted ref rest ∧ PairOK m 0 (parent, child)
  | .prune parent child _ acc k => ContOK cfg m 0 c.req c.calls k ∧ WPruneAt cfg m parent child acc
  | .pruneCas parent child acc k => ContOK cfg m 0 c.req c.calls k ∧ WPruneAt cfg m parent child acc

theorem WPCInv.evo {cfg : Config K P} {m m' : Mem P} {c : Call K P}
    (h : WPCInv cfg m c) (he : Evo m m') : WPCInv cfg m' c := by
  have hs : 0 ≤ m.clock := Nat.zero_le _
  unfold WPCInv at h ⊢
  split <;> simp only [*] at h
  · obtain ⟨d, h2, h3, h4⟩ := h; exact ⟨d, h2, h3, h4.evo he hs⟩
  · trivial
  · trivial
  · obtain ⟨qs, h2⟩ := h; exact ⟨qs, h2.evo he hs⟩
  · obtain ⟨d, h1, h2⟩ := h; exact ⟨d, h1, h2.evo he hs⟩
  · obtain ⟨d, h1, h2, h3⟩ := h; exact ⟨d, h1, h2.evo he hs, h3.evo he hs⟩
  · obtain ⟨h1, h0, d, h2, h3⟩ := h; exact ⟨h1, h0, d, h2, h3.evo he hs⟩
  · obtain ⟨h1, h0, d, a, items, h2, h3, h4, h5, h6, h7, h8⟩ := h
    exact ⟨h1, h0, d, a, items, h2, h3.evo he hs, h4, h5.evo he hs, he.data _ _ h6, h7, h8⟩
  · obtain ⟨h1, h0, h2, h3⟩ := h; exact ⟨h1, h0, h2.evo he hs, h3.evo he hs⟩
  · exact ⟨h.1.evo he hs, h.2.evo he⟩
  · exact ⟨h.1.evo he hs, h.2.evo he⟩

end Contrie
