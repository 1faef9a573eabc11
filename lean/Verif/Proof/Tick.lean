import Verif.Proof.PCInv
/-
One atomic step of a call preserves all invariants, never fails, and either leaves the abstract map alone or
performs exactly one abstract update.
-/
set_option linter.unusedSectionVars false
namespace Contrie
variable {K P : Type} [DecidableEq K]

/-- Standing assumptions about the memory, for a call that started at `s`. -/
structure Ctx (cfg : Config K P) (A : Nat → AMap K P) (m : Mem P) (s : Nat) : Prop where
  h : MemInv cfg A m
  hA : A m.clock = m.abs cfg
  hs : s < m.clock
  hfree : ∀ a, Held m s a → m.freed a = false

/-- No update of call `id` has taken effect before step `n`. -/
def NotYet (W : Nat → Option (LP K P)) (n : Nat) (id : Nat) : Prop := ∀ τ lp, τ < n → W τ = some lp → lp.id ≠ id

/-- The result of a map operation is justified. -/
def LinRet (cfg : Config K P) (A : Nat → AMap K P) (W : Nat → Option (LP K P)) (n : Nat) (id : Nat) (o : Op K P)
    (ret : Ret P) : Prop :=
  (∃ τ, id ≤ τ ∧ τ < n ∧ W τ = some ⟨id, o, ret⟩) ∨
  (NotYet W n id ∧ ∃ τ, id ≤ τ ∧ τ < n ∧ (A τ).apply cfg.key o = (A τ, ret))

/-- The payloads in a result. -/
def Ret.payloads : Ret P → List P
  | .opt r => r.toList
  | .eon r => [r.intoInner]

/-- What is true when a call returns. -/
def RetOK (cfg : Config K P) (A : Nat → AMap K P) (W : Nat → Option (LP K P)) (m : Mem P) (c : Call K P) (r : Res P)
    (refs : List Nat) : Prop :=
  (∀ a ∈ refs, Held m c.inv a) ∧
  match c.req with
  | .op o => ∃ ret, r = .op ret ∧ LinRet cfg A W m.clock c.inv o ret ∧
      (∀ p ∈ ret.payloads, ∃ a ∈ refs, ∃ items, m.mem a = some (.data items) ∧ p ∈ items) ∧
      (match o with
        | .getOrInsert _ _ => c.calls ≤ 1 ∧ ((∃ p, ret = .eon (.new p)) → c.calls = 1)
        | _ => c.calls = 0)
  | .isEmpty => ∃ b, r = .bool b ∧ NotYet W m.clock c.inv ∧
      (b = true → ∃ τ, c.inv ≤ τ ∧ τ < m.clock ∧ A τ = AMap.empty)
  | .iter => ∃ out, r = .list out ∧ NotYet W m.clock c.inv ∧ (out.map cfg.key).Nodup ∧
      (∀ p ∈ out, ∃ τ, c.inv ≤ τ ∧ τ < m.clock ∧ A τ (cfg.key p) = some p) ∧
      ∀ k, (∀ τ, c.inv ≤ τ → τ < m.clock → A τ k ≠ none) → k ∈ out.map cfg.key

/-- What is true after a step of the call. -/
def NextInv (cfg : Config K P) (A : Nat → AMap K P) (W : Nat → Option (LP K P)) (m : Mem P) (c : Call K P) :
    Next K P → Prop
  | .goto pc ran =>
    PCInv cfg A m { c with pc := pc, calls := c.calls + (if ran then 1 else 0), ticks := c.ticks + 1 } ∧
    LinInv W m.clock { c with pc := pc, calls := c.calls + (if ran then 1 else 0), ticks := c.ticks + 1 }
  | .ret r refs => RetOK cfg A W m c r refs
  | .fail _ => False

/-- Everything about a step. -/
structure TickOK (cfg : Config K P) (A : Nat → AMap K P) (W : Nat → Option (LP K P)) (m : Mem P) (c : Call K P)
    (x : Mem P × Next K P) : Prop where
  inv : MemInv cfg A x.1.bump
  evo : Evo m x.1.bump
  lp : match W m.clock with
    | none => x.1.abs cfg = m.abs cfg
    | some lp => lp.id = c.inv ∧ c.req = .op lp.op ∧ (m.abs cfg).apply cfg.key lp.op = (x.1.abs cfg, lp.ret)
  next : NextInv cfg A W x.1.bump c x.2

section
variable {cfg : Config K P} {A : Nat → AMap K P} {W : Nat → Option (LP K P)} {m : Mem P} {s : Nat}

/-! ### Reading -/

theorem Ctx.read (x : Ctx cfg A m s) {loc : Loc} {q : List (Fin 16)} (hl : LocAt m s loc q) :
    ∃ w, m.read loc = some w ∧ m.At loc q w ∧ WHeld m s w ∧ WordOK cfg m w q := by
  have hne : ∀ {w : Word} {q}, WordOK cfg m w q → ∀ b, w.ptr = some b → m.mem b ≠ none := by
    intro w q hw b hp
    cases hd : w.data with
    | true => obtain ⟨l, h1, -⟩ := hw.of_data hp hd; rw [h1]; simp
    | false => obtain ⟨c, h1⟩ := hw.of_inner hp hd; rw [h1]; simp
  cases loc with
  | root =>
    have hq : q = [] := hl
    subst hq
    refine ⟨m.root, rfl, ⟨rfl, rfl⟩, ?_, x.h.rootOK⟩
    intro b hb
    refine ⟨hne x.h.rootOK b hb, fun τ hr => ?_⟩
    have := x.h.live [] m.root b (by simp [Mem.follow, erase_of_clean x.h.rootClean]) hb
    rw [hr] at this; cases this
  | slot a i =>
    obtain ⟨c, p, hm, rfl, hh⟩ := hl
    have hfr := x.hfree a hh
    have hok := (x.h.nodeOK a c p hm).2 i
    refine ⟨c i, by simp [Mem.read, Mem.deref, hfr, hm], ⟨c, p, hm, rfl, rfl⟩, ?_, hok⟩
    intro b hb
    refine ⟨hne hok b hb, fun τ hr => ?_⟩
    cases hra : m.retired a with
    | some τa => exact Nat.le_trans (hh.2 τa hra) (x.h.hindPtr a c p τa hm hra i b τ hb hr)
    | none =>
      have hf : m.follow m.root (p ++ [i]) = some (c i).erase := by
        rw [follow_append' (x.h.inner_at hm hra)]
        simp [Mem.follow, Mem.cellsOf, hm]
      have := x.h.live _ _ b hf (by simpa using hb)
      rw [hr] at this; cases this

/-- A leaf read by a call tells the value of the key at some instant during the call. -/
theorem Ctx.leaf (x : Ctx cfg A m s) {loc : Loc} {q : List (Fin 16)} {w : Word} (hl : LocAt m s loc q)
    (hat : m.At loc q w) {k : K} (hk : q <+: nibs (cfg.hash k)) {v : Option P} (hv : m.leafVal cfg k w = some v) :
    ∃ τ, s ≤ τ ∧ τ ≤ m.clock ∧ A τ k = v := by
  have live : ∀ w1, m.follow m.root q = some w1 → w1.erase = w.erase → A m.clock k = v := by
    intro w1 hf hw
    rw [x.hA]
    obtain ⟨ns, hns⟩ := hk
    simp only [Mem.abs, ← hns]
    rw [look_follow hf, look_congr hw]
    exact look_leaf ns hv
  cases loc with
  | root =>
    obtain ⟨rfl, rfl⟩ := hat
    exact ⟨m.clock, Nat.le_of_lt x.hs, Nat.le_refl _, live m.root.erase rfl rfl⟩
  | slot a i =>
    obtain ⟨c, p, hm, rfl, rfl⟩ := hat
    obtain ⟨c', p', hm', -, hh⟩ := hl
    rw [hm] at hm'; cases hm'
    cases hra : m.retired a with
    | some τ =>
      exact ⟨τ, hh.2 τ hra, Nat.le_of_lt (x.h.retTime a τ hra).1, x.h.hind a c p τ hm hra i k v hk hv⟩
    | none =>
      refine ⟨m.clock, Nat.le_of_lt x.hs, Nat.le_refl _, live (c i).erase ?_ rfl⟩
      rw [follow_append' (x.h.inner_at hm hra)]
      simp [Mem.follow, Mem.cellsOf, hm]

theorem Ctx.load (x : Ctx cfg A m s) {w : Word} {q : List (Fin 16)} (hw : WordOK cfg m w q) (hh : WHeld m s w)
    {a : Nat} (hp : w.ptr = some a) (hd : w.data = true) :
    ∃ items, m.loadData w = .ok items ∧ m.mem a = some (.data items) ∧ DataOK cfg items q := by
  obtain ⟨l, h1, h2⟩ := hw.of_data hp hd
  refine ⟨l, ?_, h1, h2⟩
  simp [Mem.loadData, hd, hp, Mem.deref, x.hfree a (hh a hp), h1]

theorem Ctx.descend (x : Ctx cfg A m s) {w : Word} {h : BitVec 64} {d : Nat} (hd16 : d ≤ 16)
    (hw : WordOK cfg m w (pre h d)) (hh : WHeld m s w)
    {a : Nat} (hp : w.ptr = some a) (hd : w.data = false) :
    d < 16 ∧ Held m s a ∧ (∃ c, m.mem a = some (.inner c (pre h d))) ∧
      LocAt m s (.slot a (bitsAt h (LEVEL_BITS * d))) (pre h (d + 1)) := by
  obtain ⟨c, hm⟩ := hw.of_inner hp hd
  have h1 := (x.h.nodeOK a c _ hm).1
  rw [pre_length h hd16] at h1
  exact ⟨h1, hh a hp, ⟨c, hm⟩, c, _, hm, pre_succ h h1, hh a hp⟩

/-! ### Helpers for the outcome -/

theorem NotYet.succ {id : Nat} (h : NotYet W m.clock id) (hW : W m.clock = none) : NotYet W m.bump.clock id := by
  intro τ lp hτ hl
  have h1 : τ < m.clock + 1 := hτ
  by_cases e : τ = m.clock
  · subst e; rw [hW] at hl; cases hl
  · exact h τ lp (by omega) hl

/-- A step that does not change the memory. -/
theorem TickOK.quiet (x : Ctx cfg A m s) {c : Call K P} (hW : W m.clock = none) {n : Next K P}
    (hn : NextInv cfg A W m.bump c n) : TickOK cfg A W m c (m, n) :=
  ⟨x.h.bump, Evo.bump m, by rw [hW], hn⟩

theorem enterPrune_next {m : Mem P} {c : Call K P} {pl : Loc} {child : Word} {k : Cont K P} (hp : PairOK m c.inv (pl, child))
    (hk : ContOK cfg m c.inv c.req c.calls k)
    (hl : ∀ i acc, LinInv W m.clock { c with pc := .prune pl child i acc k, ticks := c.ticks + 1 }) :
    NextInv cfg A W m c (enterPrune pl child k) := by
  obtain ⟨a, cs, q, h1, h2, h3, h4⟩ := hp
  simp only at h1
  subst h1
  simp only [enterPrune]
  refine ⟨⟨hk, a, cs, q, rfl, h2, h3, h4, AccOK.init m cs⟩, hl _ _⟩

theorem enterClean_next {m : Mem P} {c : Call K P} {deleted : P} {ref : Nat} {levels : List (Loc × Word)}
    (hreq : ∃ k, c.req = .op (.remove k)) (hcalls : c.calls = 0) (hc : CleanOK m c.inv deleted ref levels)
    (hl : ∃ τ o, c.inv ≤ τ ∧ τ < m.clock ∧ c.req = .op o ∧ W τ = some ⟨c.inv, o, .opt (some deleted)⟩) :
    NextInv cfg A W m c (enterClean deleted ref levels) := by
  obtain ⟨k, hk⟩ := hreq
  cases levels with
  | nil =>
    simp only [enterClean, NextInv, RetOK, hk]
    obtain ⟨l, h1, h2⟩ := hc.items
    refine ⟨by simpa using hc.held, _, rfl, ?_, ?_, hcalls⟩
    · obtain ⟨τ, o, h1, h2, h3, h4⟩ := hl
      rw [hk] at h3; cases h3
      exact Or.inl ⟨τ, h1, h2, h4⟩
    · intro p hp
      simp [Ret.payloads] at hp
      subst hp
      exact ⟨ref, by simp, l, h1, h2⟩
  | cons y rest =>
    obtain ⟨parent, child⟩ := y
    obtain ⟨a, cs, q, h1, h2, h3, h4⟩ := hc.levels_ok (parent, child) (by simp)
    simp only at h1
    subst h1
    simp only [enterClean, NextInv, PCInv, LinInv, PC.taken]
    exact ⟨⟨⟨k, hk⟩, by simpa using hcalls, ⟨hc.held, hc.items, fun x hx => hc.levels_ok x (by simp [hx])⟩,
      a, cs, q, rfl, h2, h3, h4⟩, hl⟩

/-- The taken payload of a continuation. -/
def Cont.taken : Cont K P → Option P
  | .clean deleted .. => some deleted
  | _ => none

theorem afterPrune_next {m : Mem P} {c : Call K P} {k : Cont K P} {r : PruneResult}
    (hk : ContOK cfg m c.inv c.req c.calls k)
    (hl : match k.taken with
      | none => NotYet W m.clock c.inv
      | some p => ∃ τ o, c.inv ≤ τ ∧ τ < m.clock ∧ c.req = .op o ∧ W τ = some ⟨c.inv, o, .opt (some p)⟩) :
    NextInv cfg A W m c (afterPrune r k) := by
  cases k with
  | trav st hash mode =>
    simp only [afterPrune, NextInv, PCInv, LinInv, PC.taken]
    exact ⟨⟨0, rfl, ⟨by simpa using hk.1, hk.2, by omega, rfl, fun _ => rfl, by intro x hx; cases hx⟩⟩, hl⟩
  | rem key =>
    simp only [afterPrune, NextInv, PCInv, LinInv, PC.taken]
    exact ⟨⟨hk.1, by simpa using hk.2, 0, rfl, ⟨by omega, rfl, rfl, by intro x hx; cases hx⟩⟩, hl⟩
  | clean deleted ref rest =>
    simp only [afterPrune]
    split
    · obtain ⟨⟨⟨kk, h1⟩, h0⟩, h2⟩ := hk
      simp only [Cont.taken] at hl
      simp only [NextInv, RetOK, h1]
      obtain ⟨l, h3, h4⟩ := h2.items
      refine ⟨by simpa using h2.held, _, rfl, ?_, ?_, h0⟩
      · obtain ⟨τ, o, h1', h2, h3, h4⟩ := hl
        rw [h1] at h3; cases h3
        exact Or.inl ⟨τ, h1', h2, h4⟩
      · intro p hp
        simp [Ret.payloads] at hp
        subst hp
        exact ⟨ref, by simp, l, h3, h4⟩
    · exact enterClean_next hk.1.1 hk.1.2 hk.2 hl

/-! ### get -/

theorem tickGet_ok {c : Call K P} (x : Ctx cfg A m c.inv) {key : K} {hash : BitVec 64} {cur : Loc}
    (hpc : c.pc = .get key hash cur) (hi : PCInv cfg A m c) (hl : LinInv W m.clock c)
    (hW : W m.clock = lpOf cfg m weak c) : TickOK cfg A W m c (tick cfg m weak c.pc) := by
  have hWn : W m.clock = none := by rw [hW]; simp only [lpOf, hpc]; split <;> rfl
  simp only [PCInv, hpc] at hi
  simp only [LinInv, hpc, PC.taken] at hl
  have hl' : NotYet W m.bump.clock c.inv := NotYet.succ hl hWn
  obtain ⟨hreq, hcalls, d, hd, htk, rfl, hloc⟩ := hi
  simp only [hpc, tick]
  refine .quiet x hWn ?_
  obtain ⟨w, hr, hat, hheld, hok⟩ := x.read hloc
  simp only [tickGet, hr]
  have retok : ∀ v refs, m.leafVal cfg key w = some v → (∀ a ∈ refs, Held m c.inv a) →
      (∀ p ∈ v.toList, ∃ a ∈ refs, ∃ items, m.mem a = some (.data items) ∧ p ∈ items) →
      RetOK cfg A W m.bump c (.op (.opt v)) refs := by
    intro v refs hv h1 h2
    refine ⟨fun a ha => (h1 a ha).evo (Evo.bump m) (Nat.le_of_lt x.hs), ?_⟩
    simp only [hreq]
    refine ⟨_, rfl, Or.inr ⟨hl', ?_⟩, h2, hcalls⟩
    obtain ⟨τ, t1, t2, t3⟩ := x.leaf hloc hat (pre_prefix _ _) hv
    exact ⟨τ, t1, Nat.lt_succ_of_le t2, by simp [AMap.apply, t3]⟩
  cases hp : w.ptr with
  | none => exact retok none [] (leafVal_null hp) (by simp) (by simp)
  | some a =>
    cases hdt : w.data with
    | true =>
      obtain ⟨items, h1, h2, h3⟩ := x.load hok hheld hp hdt
      simp only [if_true, h1]
      have hlv := leafVal_data (cfg := cfg) (k := key) hp hdt h2
      cases hf : items.find? (fun l => decide (cfg.key l = key)) with
      | none => rw [hf] at hlv; exact retok none [] hlv (by simp) (by simp)
      | some p =>
        rw [hf] at hlv
        refine retok (some p) [a] hlv (by simpa using hheld a hp) ?_
        intro p' hp'
        simp at hp'; subst hp'
        exact ⟨a, by simp, items, h2, List.mem_of_find?_eq_some hf⟩
    | false =>
      obtain ⟨h1, h2, h3, h4⟩ := x.descend hd hok hheld hp hdt
      simp only [NextInv, PCInv, LinInv, PC.taken]
      refine ⟨⟨hreq, hcalls, d + 1, by omega, by omega, shift_succ _ _, ?_⟩, hl'⟩
      rw [bitsAt_shift]
      exact h4.evo (Evo.bump m) (Nat.le_of_lt x.hs)

/-! ### is_empty -/

theorem tickIsEmpty_ok {c : Call K P} (x : Ctx cfg A m c.inv)
    (hpc : c.pc = .isEmpty) (hi : PCInv cfg A m c) (hl : LinInv W m.clock c)
    (hW : W m.clock = lpOf cfg m weak c) : TickOK cfg A W m c (tick cfg m weak c.pc) := by
  have hWn : W m.clock = none := by rw [hW]; simp only [lpOf, hpc]; split <;> rfl
  simp only [PCInv, hpc] at hi
  simp only [LinInv, hpc, PC.taken] at hl
  have hl' : NotYet W m.bump.clock c.inv := NotYet.succ hl hWn
  simp only [hpc, tick]
  refine .quiet x hWn ?_
  simp only [NextInv, RetOK, hi.1]
  refine ⟨by simp, _, rfl, hl', ?_⟩
  intro hb
  refine ⟨m.clock, Nat.le_of_lt x.hs, Nat.lt_succ_self _, ?_⟩
  rw [x.hA]
  funext k
  have : m.root.ptr = none := by simpa using hb
  simp only [Mem.abs, AMap.empty]
  exact look_leaf _ (leafVal_null this)
end
end Contrie
