import Verif.Proof.Weak
import Verif.Proof.TickRem
/-
Steps of the weak memory machine: every step of a thread which knows what it holds is fine.
-/
set_option linter.unusedSectionVars false
namespace Contrie
variable {K P : Type} [DecidableEq K]

/-- The memory `m` a thread sees is backed by what it knows. -/
structure WCtx (cfg : Config K P) (M : WMem P) (Kn : Nat → Prop) (m : Mem P) : Prop where
  hM : WMemInv cfg M
  hK : ViewOK M Kn
  next : m.next = M.next
  freed : ∀ a, m.freed a = false
  data : ∀ a l, Kn a → M.nodes a = some (.data l) → m.mem a = some (.data l)
  inner : ∀ a c p, Kn a → M.nodes a = some (.inner c p) → ∃ c', m.mem a = some (.inner c' p)

/-- The load of `loc` returned `w`, which is fit for it. -/
structure WRead (cfg : Config K P) (M : WMem P) (m : Mem P) (loc : Loc) (w : Word) : Prop where
  read : m.read loc = some w
  ok : ∀ q, LocAt M.ideal 0 loc q → WordOK cfg M.ideal w q
  clean : loc = .root → w.cond = false

/-- What a step leaves to the thread. -/
def WGoodNext (cfg : Config K P) (M : WMem P) (Kn : Nat → Prop) (new : Option (Node P)) (c : Call K P) : Next K P → Prop
  | .goto pc ran => WPCInv cfg M.ideal { c with
      pc := pc, calls := c.calls + (if ran then 1 else 0), ticks := c.ticks + 1 } ∧ ∀ a, pc.Holds a → Kn a
  | .ret _ refs => ∀ a ∈ refs, (Kn a ∧ ∃ l, M.nodes a = some (.data l)) ∨ (∃ l, new = some (.data l)) ∧ a = M.next
  | .fail _ => False

/-- What a step stores. -/
def WGoodStore (cfg : Config K P) (M : WMem P) (Kn : Nat → Prop) (new : Option (Node P)) (loc : Loc) (w : Word) : Prop :=
  (∃ q, LocAt M.ideal 0 loc q ∧ WordOK cfg (M.after new none).ideal w q) ∧
  (∀ b, w.ptr = some b → Kn b ∨ new.isSome = true ∧ b = M.next) ∧ (loc = .root → w.cond = false)

/-- A step of a thread. -/
structure WTickOK (cfg : Config K P) (O : Orders) (M : WMem P) (Kn : Nat → Prop) (m : Mem P) (weak : Bool) (w : Word)
    (c : Call K P) (x : Mem P × Next K P) : Prop where
  new : GoodNew cfg M Kn (newNode m x.1)
  next : WGoodNext cfg M Kn (newNode m x.1) c x.2
  store : ∀ loc o rel w', c.pc.access O = some (loc, o) → c.pc.stores O weak w = some rel → x.1.read loc = some w' →
    WGoodStore cfg M Kn (newNode m x.1) loc w'

section
variable {cfg : Config K P} {O : Orders} {M : WMem P} {Kn : Nat → Prop} {m : Mem P} {weak : Bool} {w : Word} {c : Call K P}

theorem newNode_same {m : Mem P} : newNode m m = none := by simp [newNode]

theorem newNode_next {m m' : Mem P} (h : m'.next = m.next) : newNode m m' = none := by simp [newNode, h]

theorem GoodNew.none : GoodNew cfg M Kn none := fun _ _ h => by cases h

/-- A step without a store. -/
theorem WTickOK.quiet {n : Next K P} (hst : c.pc.stores O weak w = none) (hn : WGoodNext cfg M Kn none c n) :
    WTickOK cfg O M Kn m weak w c (m, n) := by
  refine ⟨by rw [newNode_same]; exact GoodNew.none, by rw [newNode_same]; exact hn, ?_⟩
  intro loc o rel w' _ h; rw [hst] at h; cases h

theorem WCtx.load (x : WCtx cfg M Kn m) {w : Word} {q : List (Fin 16)} (hw : WordOK cfg M.ideal w q)
    {a : Nat} (hp : w.ptr = some a) (hk : Kn a) (hd : w.data = true) :
    ∃ items, m.loadData w = .ok items ∧ M.nodes a = some (.data items) ∧ DataOK cfg items q := by
  obtain ⟨l, h1, h2⟩ := hw.of_data hp hd
  refine ⟨l, ?_, h1, h2⟩
  simp [Mem.loadData, hd, hp, Mem.deref, x.freed a, x.data a l hk h1]

theorem WCtx.descend (x : WCtx cfg M Kn m) {w : Word} {h : BitVec 64} {d : Nat} (hd16 : d ≤ 16)
    (hw : WordOK cfg M.ideal w (pre h d)) {a : Nat} (hp : w.ptr = some a) (hd : w.data = false) :
    d < 16 ∧ Held M.ideal 0 a ∧ (∃ c, M.nodes a = some (.inner c (pre h d))) ∧
      LocAt M.ideal 0 (.slot a (bitsAt h (LEVEL_BITS * d))) (pre h (d + 1)) := by
  obtain ⟨c, hm⟩ := hw.of_inner hp hd
  have hm' : M.nodes a = some (.inner c (pre h d)) := hm
  have h1 := (x.hM.nodeOK a c _ hm').1
  rw [pre_length h hd16] at h1
  have hh : Held M.ideal 0 a := held_ideal (by rw [hm']; simp)
  exact ⟨h1, hh, ⟨c, hm⟩, c, _, hm, pre_succ h h1, hh⟩

theorem WCtx.held (_ : WCtx cfg M Kn m) {w : Word} {q : List (Fin 16)} (hw : WordOK cfg M.ideal w q) {a : Nat}
    (hp : w.ptr = some a) : Held M.ideal 0 a := by
  cases hd : w.data with
  | true => obtain ⟨l, h1, -⟩ := hw.of_data hp hd; exact held_ideal (by intro e; rw [show M.ideal.mem a = M.nodes a from rfl, e] at h1; cases h1)
  | false => obtain ⟨l, h1⟩ := hw.of_inner hp hd; exact held_ideal (by intro e; rw [show M.ideal.mem a = M.nodes a from rfl, e] at h1; cases h1)

/-! ### Continuations -/

theorem wEnterPrune {pl : Loc} {child : Word} {k : Cont K P} (hp : PairOK M.ideal 0 (pl, child))
    (hk : ContOK cfg M.ideal 0 c.req c.calls k)
    (hh : ∀ a, Cont.Holds a k ∨ pl.node = some a ∨ child.ptr = some a → Kn a) :
    WGoodNext cfg M Kn none c (enterPrune pl child k) := by
  obtain ⟨a, cs, q, h1, h2, h3, h4⟩ := hp
  simp only at h1
  subst h1
  simp only [enterPrune]
  refine ⟨⟨hk, a, cs, q, rfl, h2, h4, WAccOK.init cfg _ q⟩, ?_⟩
  intro b hb
  simp only [PC.Holds] at hb
  rcases hb with hb | hb | ⟨i, hb⟩ | ⟨w, hb, -⟩
  · exact hh b (Or.inl hb)
  · exact hh b (Or.inr hb)
  · cases hb
  · cases hb

theorem wEnterClean {new : Option (Node P)} {deleted : P} {ref : Nat} {levels : List (Loc × Word)}
    (hreq : ∃ k, c.req = .op (.remove k)) (hcalls : c.calls = 0) (hc : CleanOK M.ideal 0 deleted ref levels)
    (hh : ∀ a, (ref = a ∨ ∃ x ∈ levels, x.1.node = some a ∨ x.2.ptr = some a) → Kn a) :
    WGoodNext cfg M Kn new c (enterClean deleted ref levels) := by
  obtain ⟨l, hl1, -⟩ := hc.items
  cases levels with
  | nil =>
    simp only [enterClean, WGoodNext]
    intro a ha
    simp only [List.mem_singleton] at ha; subst ha
    exact Or.inl ⟨hh _ (Or.inl rfl), l, hl1⟩
  | cons y rest =>
    obtain ⟨parent, child⟩ := y
    obtain ⟨a, cs, q, h1, h2, h3, h4⟩ := hc.levels_ok (parent, child) (by simp)
    simp only at h1
    subst h1
    simp only [enterClean, WGoodNext, WPCInv]
    refine ⟨⟨hreq, by simpa using hcalls, ⟨hc.held, hc.items, fun x hx => hc.levels_ok x (by simp [hx])⟩,
      a, cs, q, rfl, h2, h3, h4⟩, ?_⟩
    intro b hb
    simp only [PC.Holds] at hb
    rcases hb with (hb | ⟨x, hx, hb⟩) | hb
    · exact hh b (Or.inl hb)
    · exact hh b (Or.inr ⟨x, by simp [hx], hb⟩)
    · exact hh b (Or.inr ⟨_, List.mem_cons_self, hb⟩)

theorem wAfterPrune {new : Option (Node P)} {k : Cont K P} {r : PruneResult}
    (hk : ContOK cfg M.ideal 0 c.req c.calls k) (hh : ∀ a, Cont.Holds a k → Kn a) :
    WGoodNext cfg M Kn new c (afterPrune r k) := by
  cases k with
  | trav st hash mode =>
    simp only [afterPrune, WGoodNext, WPCInv]
    refine ⟨⟨0, rfl, ⟨by simpa using hk.1, hk.2, by omega, rfl, fun _ => rfl, by intro x hx; cases hx⟩⟩, ?_⟩
    intro a ha
    simp only [PC.Holds] at ha
    rcases ha with ha | ⟨x, hx, -⟩
    · cases ha
    · cases hx
  | rem key =>
    simp only [afterPrune, WGoodNext, WPCInv]
    refine ⟨⟨hk.1, by simpa using hk.2, 0, rfl, ⟨by omega, rfl, rfl, by intro x hx; cases hx⟩⟩, ?_⟩
    intro a ha
    simp only [PC.Holds] at ha
    rcases ha with ha | ⟨x, hx, -⟩
    · cases ha
    · cases hx
  | clean deleted ref rest =>
    simp only [afterPrune]
    split
    · simp only [WGoodNext]
      intro a ha
      simp only [List.mem_singleton] at ha; subst ha
      obtain ⟨l, hl1, -⟩ := hk.2.items
      exact Or.inl ⟨hh _ (Or.inl rfl), l, hl1⟩
    · exact wEnterClean hk.1.1 hk.1.2 hk.2 hh

/-! ### Reading operations -/

theorem wTickGet (x : WCtx cfg M Kn m) {key : K} {hash : BitVec 64} {cur : Loc}
    (hpc : c.pc = .get key hash cur) (hi : WPCInv cfg M.ideal c) (hr : WRead cfg M m cur w)
    (hk : ∀ b, w.ptr = some b → Kn b) : WTickOK cfg O M Kn m weak w c (tick cfg m weak c.pc) := by
  simp only [WPCInv, hpc] at hi
  obtain ⟨d, hd, rfl, hl⟩ := hi
  have hst : c.pc.stores O weak w = none := by rw [hpc]; rfl
  have hok := hr.ok _ hl
  have : tick cfg m weak c.pc = (m, tickGet cfg m key (cfg.hash key >>> (LEVEL_BITS * d)) cur) := by rw [hpc]; rfl
  rw [this]
  refine .quiet hst ?_
  simp only [tickGet, hr.read]
  cases hp : w.ptr with
  | none => simp [WGoodNext]
  | some a =>
    simp only
    cases hdt : w.data with
    | true =>
      obtain ⟨items, h1, h2, h3⟩ := x.load hok hp (hk a hp) hdt
      simp only [if_true, h1]
      split
      · simp [WGoodNext]
      · simp only [WGoodNext]
        intro b hb
        simp only [List.mem_singleton] at hb; subst hb
        exact Or.inl ⟨hk _ hp, items, h2⟩
    | false =>
      obtain ⟨h1, h2, ⟨cs, h3⟩, h4⟩ := x.descend hd hok hp hdt
      simp only [Bool.false_eq_true, if_false, WGoodNext, WPCInv]
      refine ⟨⟨d + 1, by omega, shift_succ _ _, ?_⟩, ?_⟩
      · rw [bitsAt_shift]; exact h4
      · intro b hb
        simp only [PC.Holds, Loc.node, Option.some.injEq] at hb
        subst hb; exact hk _ hp

theorem wTickCount (x : WCtx cfg M Kn m) {deleted : P} {ref : Nat} {parent : Loc} {child : Word}
    {rest : List (Loc × Word)} {i : Fin 16} {cnt : Nat}
    (hpc : c.pc = .count deleted ref parent child rest i cnt) (hi : WPCInv cfg M.ideal c)
    (hh : ∀ a, c.pc.Holds a → Kn a)
    (hr : ∀ a, child.ptr = some a → WRead cfg M m (.slot a i) w) :
    WTickOK cfg O M Kn m weak w c (tick cfg m weak c.pc) := by
  simp only [WPCInv, hpc] at hi
  obtain ⟨hreq, hcalls, hc, hp⟩ := hi
  have hst : c.pc.stores O weak w = none := by rw [hpc]; rfl
  have : tick cfg m weak c.pc = (m, tickCount m deleted ref parent child rest i cnt) := by rw [hpc]; rfl
  rw [this]
  refine .quiet hst ?_
  have hp0 := hp
  obtain ⟨a, cs, q, h1, h2, h3, h4⟩ := hp
  simp only at h1
  subst h1
  simp only [tickCount, (hr a rfl).read]
  generalize (if w.ptr.isSome = true then cnt + 1 else cnt) = cnt'
  rw [hpc] at hh
  split
  · simp only [WGoodNext, WPCInv]
    exact ⟨⟨hreq, by simpa using hcalls, hc, hp0⟩, hh⟩
  · by_cases hcnt : 1 < cnt'
    · simp only [hcnt, if_true, WGoodNext]
      intro b hb
      simp only [List.mem_singleton] at hb; subst hb
      obtain ⟨l, hl1, -⟩ := hc.items
      exact Or.inl ⟨hh _ (Or.inl (Or.inl rfl)), l, hl1⟩
    · simp only [hcnt, if_false]
      refine wEnterPrune (k := .clean deleted ref rest) hp0 ⟨⟨hreq, hcalls⟩, hc⟩ ?_
      intro b hb
      exact hh b hb

/-! ### Iteration -/

theorem stack_len {m : Mem P} {lv : List (Word × Nat)} {qs : List (List (Fin 16))} (h : StackOK cfg m 0 lv qs) :
    lv.length = (match qs with | [] => 0 | q :: _ => q.length + 1) := by
  induction h with
  | nil => rfl
  | root => rfl
  | push w idx w1 i q rest qs hs h1 hw hh ih => simp at ih ⊢; omega

theorem wTickIterNew (x : WCtx cfg M Kn m) (hpc : c.pc = .iterNew) (hr : WRead cfg M m .root w)
    (hk : ∀ b, w.ptr = some b → Kn b) : WTickOK cfg O M Kn m weak w c (tick cfg m weak c.pc) := by
  have hst : c.pc.stores O weak w = none := by rw [hpc]; rfl
  have hrt : m.root = w := by simpa [Mem.read] using hr.read
  have : tick cfg m weak c.pc = (m, .goto (.iterNext [(w, 0)] []) false) := by rw [hpc, ← hrt]; rfl
  rw [this]
  refine .quiet hst ?_
  have hok := hr.ok [] rfl
  simp only [WGoodNext, WPCInv]
  refine ⟨⟨_, .root w 0 hok (fun b hb => x.held hok hb)⟩, ?_⟩
  intro a ha
  simp only [PC.Holds, List.mem_singleton] at ha
  obtain ⟨y, rfl, hy⟩ := ha
  exact hk a hy

theorem wTickIterNext (x : WCtx cfg M Kn m) {lv : List (Word × Nat)} {out : List P} (hpc : c.pc = .iterNext lv out)
    (hi : WPCInv cfg M.ideal c) (hh : ∀ a, c.pc.Holds a → Kn a)
    (hr : ∀ loc o, c.pc.access O = some (loc, o) → WRead cfg M m loc w)
    (hk : ∀ loc o, c.pc.access O = some (loc, o) → ∀ b, w.ptr = some b → Kn b) :
    WTickOK cfg O M Kn m weak w c (tick cfg m weak c.pc) := by
  simp only [WPCInv, hpc] at hi
  obtain ⟨qs, hs⟩ := hi
  have hst : c.pc.stores O weak w = none := by rw [hpc]; rfl
  have : tick cfg m weak c.pc = (m, tickIterNext m lv out) := by rw [hpc]; rfl
  rw [this]
  refine .quiet hst ?_
  rw [hpc] at hh hr hk
  have pop : ∀ y rest qs, lv = y :: rest → StackOK cfg M.ideal 0 (y :: rest) qs → WGoodNext cfg M Kn none c (.goto (.iterNext rest out) false) := by
    intro y rest qs hlv h
    simp only [WGoodNext, WPCInv]
    refine ⟨?_, ?_⟩
    · cases h with
      | root => exact ⟨[], .nil⟩
      | push _ _ _ _ _ _ _ h => exact ⟨_, h⟩
    · intro a ha
      simp only [PC.Holds] at ha
      obtain ⟨z, hz, ha⟩ := ha
      exact hh a ⟨z, by rw [hlv]; simp [hz], ha⟩
  cases lv with
  | nil => simp [tickIterNext, WGoodNext]
  | cons y rest =>
    obtain ⟨w1, idx⟩ := y
    have hw1 : ∃ q qs', qs = q :: qs' ∧ WordOK cfg M.ideal w1 q := by
      cases hs with
      | root _ _ hw _ => exact ⟨_, _, rfl, hw⟩
      | push _ _ _ _ _ _ _ _ _ hw _ => exact ⟨_, _, rfl, hw⟩
    obtain ⟨q, qs', rfl, hok1⟩ := hw1
    have hlen := stack_len hs
    simp only at hlen
    simp only [tickIterNext]
    cases hp : w1.ptr with
    | none => exact pop _ _ _ rfl hs
    | some a =>
      have hka : Kn a := hh a ⟨_, List.mem_cons_self, hp⟩
      simp only
      cases hd : w1.data with
      | true =>
        obtain ⟨items, h1, h2, h3⟩ := x.load hok1 hp hka hd
        simp only [if_true, h1]
        split
        · simp only [WGoodNext, WPCInv]
          refine ⟨⟨q :: qs', ?_⟩, ?_⟩
          · cases hs with
            | root _ _ hw hz => exact .root _ _ hw hz
            | push _ _ _ _ _ _ _ h h1 hw hz => exact .push _ _ _ _ _ _ _ h h1 hw hz
          · intro b hb
            simp only [PC.Holds, List.mem_cons] at hb
            obtain ⟨z, hz, hb⟩ := hb
            rcases hz with rfl | hz
            · exact hh b ⟨_, List.mem_cons_self, hb⟩
            · exact hh b ⟨z, by simp [hz], hb⟩
        · exact pop _ _ _ rfl hs
      | false =>
        simp only [Bool.false_eq_true, if_false]
        split
        · next hidx =>
          have hacc : PC.access (K := K) O (.iterNext ((w1, idx) :: rest) out) = some (.slot a ⟨idx, hidx⟩, O.iter) := by
            simp [PC.access, hp, hd, hidx]
          have hrd := hr _ _ hacc
          obtain ⟨cs, hn⟩ := hok1.of_inner hp hd
          have hn' : M.nodes a = some (.inner cs q) := hn
          have hq := (x.hM.nodeOK a cs q hn').1
          have hloc : LocAt M.ideal 0 (.slot a ⟨idx, hidx⟩) (q ++ [⟨idx, hidx⟩]) :=
            ⟨cs, q, hn, rfl, held_ideal (by rw [hn']; simp)⟩
          have hokw := hrd.ok _ hloc
          have hml : ¬ MAX_LEVELS + 1 ≤ ((w1, idx) :: rest).length := by
            rw [hlen]; simp [MAX_LEVELS, LEVEL_BITS]; omega
          simp only [hrd.read, hml, if_false, WGoodNext, WPCInv]
          refine ⟨⟨(q ++ [⟨idx, hidx⟩]) :: q :: qs', ?_⟩, ?_⟩
          · refine .push w 0 w1 ⟨idx, hidx⟩ q rest qs' ?_ ⟨by rw [hp]; simp, hd⟩ hokw (fun b hb => x.held hokw hb)
            cases hs with
            | root _ _ hw hz => exact .root _ _ hw hz
            | push _ _ _ _ _ _ _ h h1 hw hz => exact .push _ _ _ _ _ _ _ h h1 hw hz
          · intro b hb
            simp only [PC.Holds, List.mem_cons] at hb
            obtain ⟨z, hz, hb⟩ := hb
            rcases hz with rfl | rfl | hz
            · exact hk _ _ hacc b hb
            · exact hh b ⟨_, List.mem_cons_self, hb⟩
            · exact hh b ⟨z, by simp [hz], hb⟩
        · exact pop _ _ _ rfl hs

/-! ### traverse -/

theorem wTickTrav (x : WCtx cfg M Kn m) {st : TState K P} {hash : BitVec 64} {mode : Mode}
    {shift : Nat} {cur : Loc} {parent : Option (Loc × Word)}
    (hpc : c.pc = .trav st hash mode shift cur parent) (hi : WPCInv cfg M.ideal c)
    (hh : ∀ a, c.pc.Holds a → Kn a) (hr : WRead cfg M m cur w)
    (hkn : ∀ b, w.ptr = some b → Kn b) : WTickOK cfg O M Kn m weak w c (tick cfg m weak c.pc) := by
  simp only [WPCInv, hpc] at hi
  obtain ⟨d, rfl, ht⟩ := hi
  have hst : c.pc.stores O weak w = none := by rw [hpc]; rfl
  have : tick cfg m weak c.pc = (m, tickTrav cfg m st hash mode (LEVEL_BITS * d) cur parent) := by rw [hpc]; rfl
  rw [this]
  refine .quiet hst ?_
  have hok := hr.ok _ ht.loc
  rw [hpc] at hh
  simp only [tickTrav, hr.read]
  have hbits : ∀ {d : Nat}, LEVEL_BITS * d < HASH_BITS ↔ d < 16 := by
    intro d; simp only [LEVEL_BITS, HASH_BITS]; omega
  cases hcond : w.cond with
  | true =>
    simp only [if_true]
    cases hpar : parent with
    | none =>
      have := ht.par0 hpar
      subst this
      rw [hr.clean rfl] at hcond; cases hcond
    | some y =>
      obtain ⟨pl, child⟩ := y
      refine wEnterPrune (ht.par _ hpar) ⟨ht.req, ht.hashEq⟩ ?_
      rintro a (ha | ha)
      · cases ha
      · exact hh a (Or.inr ⟨_, hpar, ha⟩)
  | false =>
    simp only [Bool.false_eq_true, if_false]
    have hmake := ht.req.make
    have hkey := ht.req.key_payload
    cases hp : w.ptr with
    | none =>
      simp only [WGoodNext, WPCInv]
      refine ⟨⟨d, rfl, ⟨hmake, ?_, ht.len, ht.loc, ht.par0, ht.par⟩, ?_⟩, ?_⟩
      · rw [ht.hashEq]; exact congrArg cfg.hash hkey.symm
      · rw [word_eq_null hok hp hcond]; exact .fresh _ rfl
      · intro a ha
        simp only [PC.Holds] at ha
        rcases ha with ha | ha | ⟨_, _, _, ha, -⟩
        · exact hh a ha
        · rw [hp] at ha; cases ha
        · cases ha
    | some a =>
      cases hdt : w.data with
      | true =>
        obtain ⟨items, h1, h2, h3⟩ := x.load hok hp (hkn a hp) hdt
        have hheld := x.held hok hp
        simp only [if_true, h1]
        cases items with
        | nil => exact absurd rfl h3.ne
        | cons d0 rest =>
          simp only
          have hshort : rest = [] ∨ d = 16 := by
            rcases h3.short with h4 | h4
            · left; simpa using h4
            · right; rw [pre_length _ ht.len] at h4; exact h4
          split
          · next hsp =>
            obtain ⟨hne, hd16⟩ := hsp
            rw [hbits] at hd16
            have hrest : rest = [] := by
              rcases hshort with h4 | h4
              · exact h4
              · omega
            subst hrest
            simp only [List.length_singleton, ne_eq, not_true, if_false]
            simp only [WGoodNext, WPCInv]
            refine ⟨⟨d, rfl, by simpa using ht, ?_⟩, ?_⟩
            · rw [pathTo_eq_take hash ht.len, word_eq_data hp hdt hcond]
              exact .split a d0 hheld h2 hd16 hne
            · intro b hb
              simp only [PC.Holds] at hb
              rcases hb with hb | hb | ⟨c', p', i, hb, hb2⟩
              · exact hh b hb
              · exact hkn b hb
              · cases hb
                by_cases hi : i = bitsAt (cfg.hash (cfg.key d0)) (LEVEL_BITS * d)
                · subst hi; rw [upd_same] at hb2; exact hkn b hb2
                · rw [upd_other _ _ hi] at hb2; cases hb2
          · next hsp =>
            have hdeep : d = 16 ∨ ∃ d1, d0 :: rest = [d1] ∧ cfg.key d1 = st.key cfg := by
              by_cases hd16 : d < 16
              · right
                have hk : cfg.key d0 = st.key cfg := by
                  apply Classical.byContradiction
                  intro hne
                  exact hsp ⟨hne, hbits.mpr hd16⟩
                rcases hshort with h4 | h4
                · subst h4; exact ⟨d0, rfl, hk⟩
                · omega
              · left; have := ht.len; omega
            split
            · next hm =>
              simp only [WGoodNext, WPCInv]
              refine ⟨⟨d, rfl, ⟨hmake, ?_, ht.len, ht.loc, ht.par0, ht.par⟩, ?_⟩, ?_⟩
              · rw [ht.hashEq]; exact congrArg cfg.hash hkey.symm
              · rw [word_eq_data hp hdt hcond]
                have hk2 : TState.key cfg (TState.created (K := K) st.payload) = st.key cfg := hkey
                rw [← hk2] at hdeep hm ⊢
                exact .replace a _ (d0 :: rest) rfl hheld h2 h3 hdeep hm
              · intro b hb
                simp only [PC.Holds] at hb
                rcases hb with hb | hb | ⟨_, _, _, hb, -⟩
                · exact hh b hb
                · exact hkn b hb
                · cases hb
            · next hm =>
              cases hf : (d0 :: rest).find? (fun l => decide (cfg.key l = st.key cfg)) with
              | none => rw [hf] at hm; simp at hm
              | some e =>
                rw [hf] at hm
                have hmode : mode = .ifMissing := by
                  cases mode with
                  | ifMissing => rfl
                  | overwrite => simp at hm
                subst hmode
                simp only [finishTrav, Option.map_some, WGoodNext]
                intro b hb
                simp only [List.mem_singleton] at hb; subst hb
                exact Or.inl ⟨hkn _ hp, _, h2⟩
      | false =>
        simp only [Bool.false_eq_true, if_false]
        obtain ⟨h1, h2, ⟨cs, h3⟩, h4⟩ := x.descend ht.len hok hp hdt
        have hsh : ¬ HASH_BITS ≤ LEVEL_BITS * d := by have := hbits.mpr h1; omega
        simp only [hsh, if_false, WGoodNext, WPCInv]
        refine ⟨⟨d + 1, rfl, ⟨by simpa using ht.req, ht.hashEq, by omega, h4, (by intro h; cases h), ?_⟩⟩, ?_⟩
        · intro y hy
          cases hy
          exact ⟨a, cs, _, word_eq_inner hp hdt hcond, h3, h2, ht.loc⟩
        · intro b hb
          simp only [PC.Holds, Loc.node, Option.some.injEq] at hb
          rcases hb with hb | ⟨y, hy, hb⟩
          · subst hb; exact hkn _ hp
          · subst hy
            rcases hb with hb | hb
            · exact hh b (Or.inl hb)
            · exact hkn b hb

theorem wTickRem (x : WCtx cfg M Kn m) {key : K} {shift : Nat} {cur : Loc} {levels : List (Loc × Word)}
    (hpc : c.pc = .rem key shift cur levels) (hi : WPCInv cfg M.ideal c)
    (hh : ∀ a, c.pc.Holds a → Kn a) (hr : WRead cfg M m cur w)
    (hkn : ∀ b, w.ptr = some b → Kn b) : WTickOK cfg O M Kn m weak w c (tick cfg m weak c.pc) := by
  simp only [WPCInv, hpc] at hi
  obtain ⟨hreq, hcalls, d, rfl, ht⟩ := hi
  have hst : c.pc.stores O weak w = none := by rw [hpc]; rfl
  have : tick cfg m weak c.pc = (m, tickRem cfg m key (LEVEL_BITS * d) cur levels) := by rw [hpc]; rfl
  rw [this]
  refine .quiet hst ?_
  have hok := hr.ok _ ht.loc
  rw [hpc] at hh
  simp only [tickRem, hr.read]
  cases hp : w.ptr with
  | none => simp [WGoodNext]
  | some a =>
    simp only
    cases hcond : w.cond with
    | true =>
      simp only [if_true]
      cases hlv : levels with
      | nil =>
        have hd0 : d = 0 := by rw [← ht.levels_len, hlv]; rfl
        subst hd0
        have hroot : cur = .root := by
          have := ht.loc
          cases cur with
          | root => rfl
          | slot b i =>
            obtain ⟨cs, p, -, h2, -⟩ := this
            simp [pre_zero] at h2
        subst hroot
        rw [hr.clean rfl] at hcond; cases hcond
      | cons y rest =>
        obtain ⟨pl, child⟩ := y
        refine wEnterPrune (ht.levels_ok _ (by rw [hlv]; simp)) ⟨hreq, hcalls⟩ ?_
        rintro b (hb | hb)
        · cases hb
        · exact hh b (Or.inr ⟨(pl, child), by rw [hlv]; simp, hb⟩)
    | false =>
      simp only [Bool.false_eq_true, if_false]
      cases hdt : w.data with
      | true =>
        obtain ⟨items, h1, h2, h3⟩ := x.load hok hp (hkn a hp) hdt
        simp only [if_true, h1]
        cases hf : (items.filter (fun l => decide (cfg.key l = key))).getLast? with
        | none => simp [WGoodNext]
        | some deleted =>
          have hmem : deleted ∈ items := (List.mem_filter.mp (List.mem_of_getLast? hf)).1
          simp only [WGoodNext, WPCInv]
          refine ⟨⟨hreq, by simpa using hcalls, d, a, items, rfl, ht, word_eq_data hp hdt hcond, x.held hok hp,
            h2, h3, rfl, hmem⟩, ?_⟩
          intro b hb
          simp only [PC.Holds] at hb
          rcases hb with hb | hb
          · exact hh b hb
          · exact hkn b hb
      | false =>
        simp only [Bool.false_eq_true, if_false]
        obtain ⟨h1, h2, ⟨cs, h3⟩, h4⟩ := x.descend ht.len hok hp hdt
        have hml : ¬ MAX_LEVELS ≤ levels.length := by rw [ht.levels_len]; simp [MAX_LEVELS, LEVEL_BITS]; omega
        have hsh : ¬ HASH_BITS ≤ LEVEL_BITS * d := by simp only [LEVEL_BITS, HASH_BITS]; omega
        simp only [hml, hsh, if_false, WGoodNext, WPCInv]
        refine ⟨⟨hreq, by simpa using hcalls, d + 1, rfl, ⟨by omega, by simp [ht.levels_len], h4, ?_⟩⟩, ?_⟩
        · intro y hy
          simp at hy
          rcases hy with rfl | hy
          · exact ⟨a, cs, _, word_eq_inner hp hdt hcond, h3, h2, ht.loc⟩
          · exact ht.levels_ok y hy
        · intro b hb
          simp only [PC.Holds, Loc.node, Option.some.injEq, List.mem_cons] at hb
          rcases hb with hb | ⟨y, hy, hb⟩
          · subst hb; exact hkn _ hp
          · rcases hy with rfl | hy
            · rcases hb with hb | hb
              · exact hh b (Or.inl hb)
              · exact hkn b hb
            · exact hh b (Or.inr ⟨y, hy, hb⟩)

end
end Contrie
