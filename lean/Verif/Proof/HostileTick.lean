import Verif.Proof.HostileCas
import Verif.Proof.TickRem
/-
The machine with misbehaving user code: one step of a call.
-/
set_option linter.unusedSectionVars false
namespace Contrie
variable {K P : Type}

/-! ### What a call in progress knows -/

/-- Items of held data nodes. -/
def OutOK (m : Mem P) (s : Nat) (out : List P) : Prop :=
  ∀ p ∈ out, ∃ a items, Held m s a ∧ m.mem a = some (.data items) ∧ p ∈ items

/-- The stack of the iterator (top first). -/
def HStack (m : Mem P) (s : Nat) : List (Word × Nat) → Prop
  | [] => True
  | (w, _) :: rest => (∃ q, HWordOK m w q ∧ WHeld m s w ∧ q.length = rest.length) ∧ HStack m s rest

/-- Position of a traversal. -/
structure HTravAt (m : Mem P) (s : Nat) (hash : BitVec 64) (d : Nat) (cur : Loc) (parent : Option (Loc × Word)) : Prop where
  len : d ≤ 16
  loc : LocAt m s cur (pre hash d)
  par0 : parent = none → cur = .root
  par : ∀ x, parent = some x → PairOK m s x

/-- The pending CAS of a traversal. -/
inductive HCasOK (m : Mem P) (s : Nat) (st : TState K P) (hash : BitVec 64) (d : Nat) :
    Word → Node P → TKind P → Prop
  | fresh (p q : P) (hst : st = .created q) : HCasOK m s st hash d Word.null (.data [p]) .fresh
  | split (a : Nat) (i : Fin 16) (hh : Held m s a) (hd : d < 16) :
      HCasOK m s st hash d ⟨some a, false, true⟩
        (.inner (upd (fun _ => Word.null) i ⟨some a, false, true⟩) (pre hash d)) .split
  | replace (a : Nat) (p q : P) (items new : List P) (found : Option P) (hst : st = .created q) (hh : Held m s a)
      (hm : m.mem a = some (.data items)) (hfound : ∀ e, found = some e → e ∈ items) :
      HCasOK m s st hash d ⟨some a, false, true⟩ (.data (new ++ [p])) (.replace found)

/-- Position of a removal. -/
structure HRemAt (m : Mem P) (s : Nat) (d : Nat) (cur : Loc) (levels : List (Loc × Word)) : Prop where
  len : d ≤ 16
  levels_len : levels.length = d
  loc : ∃ q, LocAt m s cur q ∧ q.length = d
  levels_ok : ∀ x ∈ levels, PairOK m s x

/-- What `prune` returns to. -/
def HContOK (m : Mem P) (s : Nat) : Cont K P → Prop
  | .trav _ _ _ => True
  | .rem _ => True
  | .clean deleted ref rest => CleanOK m s deleted ref rest

/-- The invariant of a call in progress: started at `s`, `n` accesses made. -/
def HPCInv (m : Mem P) (s n : Nat) : PC K P → Prop
  | .get _ hash cur => ∃ (h : BitVec 64) (d : Nat), d ≤ 16 ∧ n = d ∧ hash = h >>> (LEVEL_BITS * d) ∧ LocAt m s cur (pre h d)
  | .isEmpty => True
  | .iterNew => True
  | .iterNext lv out => HStack m s lv ∧ OutOK m s out
  | .trav _ hash _ shift cur parent => ∃ d, shift = LEVEL_BITS * d ∧ HTravAt m s hash d cur parent
  | .travCas st hash _ shift cur parent node new kind => ∃ d, shift = LEVEL_BITS * d ∧
      HTravAt m s hash d cur parent ∧ HCasOK m s st hash d node new kind
  | .rem _ shift cur levels => ∃ d, shift = LEVEL_BITS * d ∧ HRemAt m s d cur levels
  | .remCas _ shift cur levels node _ deleted =>
      ∃ d a items, shift = LEVEL_BITS * d ∧ HRemAt m s d cur levels ∧ node = ⟨some a, false, true⟩ ∧
        Held m s a ∧ m.mem a = some (.data items) ∧ deleted ∈ items
  | .count deleted ref parent child rest _ _ => CleanOK m s deleted ref rest ∧ PairOK m s (parent, child)
  | .prune parent child i acc k => HContOK m s k ∧ PruneAt m s parent child i.val acc
  | .pruneCas parent child acc k => HContOK m s k ∧ PruneAt m s parent child 16 acc

/-! ### The steps of others do not matter -/

section
variable {m m' : Mem P} {s : Nat}

theorem HWordOK.evo {w : Word} {q : List (Fin 16)} (h : HWordOK m w q)
    (he : Evo m m') : HWordOK m' w q := by
  simp only [HWordOK] at h ⊢
  cases hp : w.ptr with
  | none => simpa [hp] using h
  | some a =>
    simp only [hp] at h ⊢
    cases hd : w.data with
    | true => simp only [hd, if_true] at h ⊢; obtain ⟨l, h1, h2⟩ := h; exact ⟨l, he.data a l h1, h2⟩
    | false =>
      simp only [hd] at h ⊢
      obtain ⟨c, h1⟩ := h
      obtain ⟨c', h2, -⟩ := he.inner a c q h1
      exact ⟨c', h2⟩

theorem OutOK.evo {out : List P} (h : OutOK m s out) (he : Evo m m') (hs : s ≤ m.clock) : OutOK m' s out := by
  intro p hp
  obtain ⟨a, items, h1, h2, h3⟩ := h p hp
  exact ⟨a, items, h1.evo he hs, he.data _ _ h2, h3⟩

theorem HStack.evo {lv : List (Word × Nat)} (h : HStack m s lv) (he : Evo m m') (hs : s ≤ m.clock) : HStack m' s lv := by
  induction lv with
  | nil => trivial
  | cons y rest ih =>
    obtain ⟨⟨q, h1, h2, h3⟩, h4⟩ := h
    exact ⟨⟨q, h1.evo he, h2.evo he hs, h3⟩, ih h4⟩

theorem HTravAt.evo {hash : BitVec 64} {d : Nat} {cur : Loc} {parent : Option (Loc × Word)}
    (h : HTravAt m s hash d cur parent) (he : Evo m m') (hs : s ≤ m.clock) : HTravAt m' s hash d cur parent :=
  ⟨h.len, h.loc.evo he hs, h.par0, fun x hx => (h.par x hx).evo he hs⟩

theorem HCasOK.evo {st : TState K P} {hash : BitVec 64} {d : Nat} {w : Word} {new : Node P} {kind : TKind P}
    (h : HCasOK m s st hash d w new kind) (he : Evo m m') (hs : s ≤ m.clock) : HCasOK m' s st hash d w new kind := by
  cases h with
  | fresh p q hst => exact .fresh p q hst
  | split a i hh hd => exact .split a i (hh.evo he hs) hd
  | replace a p q items new found hst hh hm hf => exact .replace a p q items new found hst (hh.evo he hs) (he.data _ _ hm) hf

theorem HRemAt.evo {d : Nat} {cur : Loc} {levels : List (Loc × Word)} (h : HRemAt m s d cur levels) (he : Evo m m')
    (hs : s ≤ m.clock) : HRemAt m' s d cur levels := by
  obtain ⟨q, h1, h2⟩ := h.loc
  exact ⟨h.len, h.levels_len, ⟨q, h1.evo he hs, h2⟩, fun x hx => (h.levels_ok x hx).evo he hs⟩

theorem HContOK.evo {k : Cont K P} (h : HContOK m s k) (he : Evo m m') (hs : s ≤ m.clock) : HContOK m' s k := by
  cases k with
  | trav st hash mode => trivial
  | rem key => trivial
  | clean deleted ref rest => exact CleanOK.evo h he hs

theorem HPCInv.evo {n : Nat} {pc : PC K P} (h : HPCInv m s n pc) (he : Evo m m') (hs : s ≤ m.clock) : HPCInv m' s n pc := by
  cases pc with
  | get key hash cur => obtain ⟨g, d, h1, h2, h3, h4⟩ := h; exact ⟨g, d, h1, h2, h3, h4.evo he hs⟩
  | isEmpty => trivial
  | iterNew => trivial
  | iterNext lv out => exact ⟨h.1.evo he hs, h.2.evo he hs⟩
  | trav st hash mode shift cur parent => obtain ⟨d, h1, h2⟩ := h; exact ⟨d, h1, h2.evo he hs⟩
  | travCas st hash mode shift cur parent node new kind =>
    obtain ⟨d, h1, h2, h3⟩ := h; exact ⟨d, h1, h2.evo he hs, h3.evo he hs⟩
  | rem key shift cur levels => obtain ⟨d, h1, h2⟩ := h; exact ⟨d, h1, h2.evo he hs⟩
  | remCas key shift cur levels node new deleted =>
    obtain ⟨d, a, items, h1, h2, h3, h4, h5, h6⟩ := h
    exact ⟨d, a, items, h1, h2.evo he hs, h3, h4.evo he hs, he.data _ _ h5, h6⟩
  | count deleted ref parent child rest i cnt => exact ⟨h.1.evo he hs, h.2.evo he hs⟩
  | prune parent child i acc k => exact ⟨h.1.evo he hs, h.2.evo he hs⟩
  | pruneCas parent child acc k => exact ⟨h.1.evo he hs, h.2.evo he hs⟩
end

/-! ### Reading -/

/-- Standing assumptions about the memory, for a call that started at `s`. -/
structure HCtx (m : Mem P) (s : Nat) : Prop where
  h : HMemInv m
  hs : s < m.clock
  hfree : ∀ a, Held m s a → m.freed a = false

section
variable {m : Mem P} {s : Nat}

theorem HCtx.read (x : HCtx m s) {loc : Loc} {q : List (Fin 16)} (hl : LocAt m s loc q) :
    ∃ w, m.read loc = some w ∧ m.At loc q w ∧ WHeld m s w ∧ HWordOK m w q := by
  have hne : ∀ {w : Word} {q}, HWordOK m w q → ∀ b, w.ptr = some b → m.mem b ≠ none := by
    intro w q hw b hp
    cases hd : w.data with
    | true => obtain ⟨l, h1, -⟩ := hw.of_data hp hd; rw [h1]; simp
    | false => obtain ⟨c, h1⟩ := hw.of_inner hp hd; rw [h1]; simp
  cases loc with
  | root =>
    have hq : q = [] := hl
    subst hq
    refine ⟨m.root, rfl, ⟨rfl, rfl⟩, ?_, x.h.rootOK⟩
    intro b hb
    refine ⟨hne x.h.rootOK b hb, fun τ hr => ?_⟩
    have := x.h.live [] m.root b (by simp [Mem.follow, erase_of_clean x.h.rootClean]) hb
    rw [hr] at this; cases this
  | slot a i =>
    obtain ⟨c, p, hm, rfl, hh⟩ := hl
    have hfr := x.hfree a hh
    have hok := (x.h.nodeOK a c p hm).2 i
    refine ⟨c i, by simp [Mem.read, Mem.deref, hfr, hm], ⟨c, p, hm, rfl, rfl⟩, ?_, hok⟩
    intro b hb
    refine ⟨hne hok b hb, fun τ hr => ?_⟩
    cases hra : m.retired a with
    | some τa => exact Nat.le_trans (hh.2 τa hra) (x.h.hindPtr a c p τa hm hra i b τ hb hr)
    | none =>
      have hf : m.follow m.root (p ++ [i]) = some (c i).erase := by
        rw [follow_append' (x.h.inner_at hm hra)]
        simp [Mem.follow, Mem.cellsOf, hm]
      have := x.h.live _ _ b hf (by simpa using hb)
      rw [hr] at this; cases this

theorem HCtx.load (x : HCtx m s) {w : Word} {q : List (Fin 16)} (hw : HWordOK m w q) (hh : WHeld m s w)
    {a : Nat} (hp : w.ptr = some a) (hd : w.data = true) :
    ∃ items, m.loadData w = .ok items ∧ m.mem a = some (.data items) ∧ items ≠ [] := by
  obtain ⟨l, h1, h2⟩ := hw.of_data hp hd
  refine ⟨l, ?_, h1, h2⟩
  simp [Mem.loadData, hd, hp, Mem.deref, x.hfree a (hh a hp), h1]

theorem HCtx.descend (x : HCtx m s) {w : Word} {q : List (Fin 16)} (hw : HWordOK m w q) (hh : WHeld m s w)
    {a : Nat} (hp : w.ptr = some a) (hd : w.data = false) (i : Fin 16) :
    q.length < 16 ∧ Held m s a ∧ (∃ c, m.mem a = some (.inner c q)) ∧ LocAt m s (.slot a i) (q ++ [i]) := by
  obtain ⟨c, hm⟩ := hw.of_inner hp hd
  exact ⟨(x.h.nodeOK a c _ hm).1, hh a hp, ⟨c, hm⟩, c, _, hm, rfl, hh a hp⟩

/-! ### Outcome of a step -/

/-- What is true when a call returns. -/
def HRetOK (m : Mem P) (s : Nat) (r : Res P) (refs : List Nat) : Prop :=
  (∀ a ∈ refs, Held m s a) ∧
  match r with
  | .op ret => ∀ p ∈ ret.payloads, ∃ a ∈ refs, ∃ items, m.mem a = some (.data items) ∧ p ∈ items
  | .bool _ => True
  | .list out => OutOK m s out

/-- What is true after a step of the call. -/
def HNextInv (m : Mem P) (s n : Nat) : Next K P → Prop
  | .goto pc _ => HPCInv m s (n + 1) pc
  | .ret r refs => HRetOK m s r refs
  | .fail f => f = .shallowCollision

/-- Everything about a step. -/
structure HTickOK (m : Mem P) (s n : Nat) (x : Mem P × Next K P) : Prop where
  inv : HMemInv x.1.bump
  evo : Evo m x.1.bump
  next : HNextInv x.1.bump s n x.2

theorem HTickOK.quiet (x : HCtx m s) {n : Nat} {y : Next K P} (hn : HNextInv m.bump s n y) : HTickOK m s n (m, y) :=
  ⟨x.h.bump, Evo.bump m, hn⟩

theorem hret_one {r : Ret P} {a : Nat} {items : List P} (hh : Held m s a) (hm : m.mem a = some (.data items))
    (hr : ∀ p ∈ r.payloads, p ∈ items) : HRetOK m s (.op r) [a] :=
  ⟨by simpa using hh, fun p hp => ⟨a, by simp, items, hm, hr p hp⟩⟩

theorem enterPrune_hnext {n : Nat} {pl : Loc} {child : Word} {k : Cont K P} (hp : PairOK m s (pl, child))
    (hk : HContOK m s k) : HNextInv m s n (enterPrune pl child k) := by
  obtain ⟨a, cs, q, h1, h2, h3, h4⟩ := hp
  simp only at h1
  subst h1
  exact ⟨hk, a, cs, q, rfl, h2, h3, h4, AccOK.init m cs⟩

theorem enterClean_hnext {n : Nat} {deleted : P} {ref : Nat} {levels : List (Loc × Word)}
    (hc : CleanOK m s deleted ref levels) : HNextInv (K := K) m s n (enterClean deleted ref levels) := by
  cases levels with
  | nil =>
    obtain ⟨l, h1, h2⟩ := hc.items
    exact hret_one hc.held h1 (by intro p hp; simp [Ret.payloads] at hp; subst hp; exact h2)
  | cons y rest =>
    obtain ⟨parent, child⟩ := y
    have hp := hc.levels_ok (parent, child) (by simp)
    obtain ⟨a, cs, q, h1, h2, h3, h4⟩ := hp
    simp only at h1
    subst h1
    exact ⟨⟨hc.held, hc.items, fun x hx => hc.levels_ok x (by simp [hx])⟩, a, cs, q, rfl, h2, h3, h4⟩

theorem afterPrune_hnext {n : Nat} {k : Cont K P} {r : PruneResult} (hk : HContOK m s k) :
    HNextInv m s n (afterPrune r k) := by
  cases k with
  | trav st hash mode =>
    exact ⟨0, rfl, ⟨by omega, rfl, fun _ => rfl, (by intro x hx; cases hx)⟩⟩
  | rem key =>
    exact ⟨0, rfl, ⟨by omega, rfl, ⟨[], rfl, rfl⟩, (by intro x hx; cases hx)⟩⟩
  | clean deleted ref rest =>
    simp only [afterPrune]
    split
    · have hc : CleanOK m s deleted ref rest := hk
      obtain ⟨l, h1, h2⟩ := hc.items
      exact hret_one hc.held h1 (by intro p hp; simp [Ret.payloads] at hp; subst hp; exact h2)
    · exact enterClean_hnext hk

theorem findAns_mem {f : Nat → P → Bool} {n : Nat} {l : List P} {p : P} (h : findAns f n l = some p) : p ∈ l := by
  induction l generalizing n with
  | nil => cases h
  | cons x l ih =>
    simp only [findAns] at h
    split at h
    · cases h; simp
    · exact List.mem_cons_of_mem _ (ih h)

theorem filterAns_mem {f : Nat → P → Bool} {n : Nat} {l : List P} {p : P} (h : p ∈ filterAns f n l) : p ∈ l := by
  induction l generalizing n with
  | nil => cases h
  | cons x l ih =>
    simp only [filterAns] at h
    split at h
    · rcases List.mem_cons.mp h with h | h
      · subst h; simp
      · exact List.mem_cons_of_mem _ (ih h)
    · exact List.mem_cons_of_mem _ (ih h)

/-! ### The steps -/

theorem hTickGet_ok {n : Nat} (x : HCtx m s) (o : Answers P) {key : K} {hash : BitVec 64} {cur : Loc}
    (hi : HPCInv m s n (PC.get (P := P) key hash cur)) : HNextInv m.bump s n (hTickGet o m key hash cur) := by
  obtain ⟨h, d, hd, htk, rfl, hloc⟩ := hi
  have ev := Evo.bump m
  have hs := Nat.le_of_lt x.hs
  obtain ⟨w, hr, hat, hheld, hok⟩ := x.read hloc
  simp only [hTickGet, hr]
  cases hp : w.ptr with
  | none => exact ⟨by simp, by simp [Ret.payloads]⟩
  | some a =>
    cases hdt : w.data with
    | true =>
      obtain ⟨items, h1, h2, h3⟩ := x.load hok hheld hp hdt
      simp only [if_true, h1]
      cases hf : findAns o.equal 0 items with
      | none => exact ⟨by simp, by simp [Ret.payloads]⟩
      | some p =>
        exact hret_one ((hheld a hp).evo ev hs) h2
          (by intro p' hp'; simp [Ret.payloads] at hp'; subst hp'; exact findAns_mem hf)
    | false =>
      obtain ⟨h1, h2, h3, h4⟩ := x.descend hok hheld hp hdt (bitsAt h (LEVEL_BITS * d))
      rw [pre_length _ hd] at h1
      refine ⟨h, d + 1, by omega, by omega, shift_succ _ _, ?_⟩
      rw [bitsAt_shift, pre_succ _ h1]
      exact h4.evo ev hs

theorem tickIterNew_hok {n : Nat} (x : HCtx m s) : HNextInv (K := K) m.bump s n (tickIterNew m) := by
  obtain ⟨w, hr, hat, hheld, hok⟩ := x.read (loc := .root) (q := []) rfl
  have hwr : w = m.root := by simp [Mem.read] at hr; exact hr.symm
  subst hwr
  have ev := Evo.bump m
  have hs := Nat.le_of_lt x.hs
  exact ⟨⟨⟨[], hok.evo ev, hheld.evo ev hs, rfl⟩, trivial⟩, (by intro p hp; cases hp)⟩

theorem tickIterNext_hok {n : Nat} (x : HCtx m s) {lv : List (Word × Nat)} {out : List P}
    (hi : HPCInv m s n (PC.iterNext (K := K) lv out)) : HNextInv (K := K) m.bump s n (tickIterNext m lv out) := by
  have ev := Evo.bump m
  have hs := Nat.le_of_lt x.hs
  obtain ⟨hst, hout⟩ := hi
  have go : ∀ lv' out', HStack m s lv' → OutOK m s out' →
      HNextInv (K := K) m.bump s n (.goto (.iterNext lv' out') false) :=
    fun lv' out' h1 h2 => ⟨h1.evo ev hs, h2.evo ev hs⟩
  cases lv with
  | nil => exact ⟨by simp, hout.evo ev hs⟩
  | cons y rest =>
    obtain ⟨w, idx⟩ := y
    obtain ⟨⟨q, hok, hheld, hlen⟩, hrest⟩ := hst
    simp only [tickIterNext]
    cases hp : w.ptr with
    | none => exact go rest out hrest hout
    | some a =>
      cases hd : w.data with
      | true =>
        obtain ⟨items, h1, h2, h3⟩ := x.load hok hheld hp hd
        simp only [if_true, h1]
        cases hg : items[idx]? with
        | some p =>
          refine go _ _ ⟨⟨q, hok, hheld, hlen⟩, hrest⟩ ?_
          intro p' hp'
          rcases List.mem_append.mp hp' with h4 | h4
          · exact hout p' h4
          · simp at h4; subst h4
            exact ⟨a, items, hheld a hp, h2, List.mem_of_getElem? hg⟩
        | none => exact go rest out hrest hout
      | false =>
        simp only [Bool.false_eq_true, if_false]
        obtain ⟨cs, hm⟩ := hok.of_inner hp hd
        have hq := (x.h.nodeOK a cs q hm).1
        split
        · next hi16 =>
          have hloc : LocAt m s (.slot a ⟨idx, hi16⟩) (q ++ [⟨idx, hi16⟩]) := ⟨cs, q, hm, rfl, hheld a hp⟩
          obtain ⟨w', hr, hat, hheld', hok'⟩ := x.read hloc
          simp only [hr]
          have hml : ¬ MAX_LEVELS + 1 ≤ ((w, idx) :: rest).length := by
            simp [MAX_LEVELS, LEVEL_BITS]; omega
          rw [if_neg hml]
          exact go _ _ ⟨⟨_, hok', hheld', by simp [hlen]⟩, ⟨q, hok, hheld, hlen⟩, hrest⟩ hout
        · exact go rest out hrest hout

theorem hTickTrav_ok {n : Nat} (x : HCtx m s) (o : Answers P) {st : TState K P} {hash : BitVec 64} {mode : Mode}
    {shift : Nat} {cur : Loc} {parent : Option (Loc × Word)}
    (hi : HPCInv m s n (.trav st hash mode shift cur parent)) :
    HNextInv m.bump s n (hTickTrav o m st hash mode shift cur parent) := by
  obtain ⟨d, rfl, ht⟩ := hi
  have hs := Nat.le_of_lt x.hs
  have ev := Evo.bump m
  obtain ⟨w, hr, hat, hheld, hok⟩ := x.read ht.loc
  simp only [hTickTrav, hr]
  have hbits : ∀ {d : Nat}, LEVEL_BITS * d < HASH_BITS ↔ d < 16 := by
    intro d; simp only [LEVEL_BITS, HASH_BITS]; omega
  cases hcond : w.cond with
  | true =>
    simp only [if_true]
    cases hpar : parent with
    | none =>
      have := ht.par0 hpar
      subst this
      obtain ⟨-, rfl⟩ := hat
      rw [x.h.rootClean] at hcond; cases hcond
    | some y => exact enterPrune_hnext ((ht.par _ hpar).evo ev hs) trivial
  | false =>
    simp only [Bool.false_eq_true, if_false]
    cases hp : w.ptr with
    | none =>
      refine ⟨d, rfl, ht.evo ev hs, ?_⟩
      have hnull : w = Word.null := by
        have : w.data = false := by simpa [HWordOK, hp] using hok
        cases w; simp_all [Word.null]
      rw [hnull]; exact .fresh _ _ rfl
    | some a =>
      cases hdt : w.data with
      | true =>
        obtain ⟨items, h1, h2, h3⟩ := x.load hok hheld hp hdt
        simp only [if_true, h1]
        cases items with
        | nil => exact absurd rfl h3
        | cons d0 rest =>
          simp only
          split
          · next hsp =>
            obtain ⟨hne, hd16⟩ := hsp
            rw [hbits] at hd16
            split
            · exact rfl
            · refine ⟨d, rfl, (ht.evo ev hs), ?_⟩
              rw [pathTo_eq_take hash ht.len, word_eq_data hp hdt hcond]
              exact .split a _ ((hheld a hp).evo ev hs) hd16
          · next hsp =>
            split
            · next hm =>
              refine ⟨d, rfl, ht.evo ev hs, ?_⟩
              rw [word_eq_data hp hdt hcond]
              exact .replace a _ _ (d0 :: rest) _ _ rfl ((hheld a hp).evo ev hs) h2 (fun e he => findAns_mem he)
            · next hm =>
              cases hf : findAns o.equal 0 (d0 :: rest) with
              | none => rw [hf] at hm; simp at hm
              | some e =>
                rw [hf] at hm
                have hmode : mode = .ifMissing := by
                  cases mode with
                  | ifMissing => rfl
                  | overwrite => simp at hm
                subst hmode
                exact hret_one ((hheld a hp).evo ev hs) h2 (by
                  intro p hp'
                  simp [Ret.payloads, ExistingOrNew.intoInner] at hp'
                  subst hp'
                  exact findAns_mem hf)
      | false =>
        simp only [Bool.false_eq_true, if_false]
        obtain ⟨h1, h2, ⟨cs, h3⟩, h4⟩ := x.descend hok hheld hp hdt (bitsAt hash (LEVEL_BITS * d))
        rw [pre_length _ ht.len] at h1
        have hsh : ¬ HASH_BITS ≤ LEVEL_BITS * d := by have := hbits.mpr h1; omega
        simp only [hsh, if_false]
        rw [← pre_succ _ h1] at h4
        refine ⟨d + 1, rfl, ⟨by omega, h4.evo ev hs, (by intro h; cases h), ?_⟩⟩
        intro y hy
        cases hy
        exact PairOK.evo ⟨a, cs, _, word_eq_inner hp hdt hcond, h3, h2, ht.loc⟩ ev hs

theorem HMemInv.next_unretired (h : HMemInv m) : m.retired m.next = none := by
  cases hrr : m.retired m.next with
  | none => rfl
  | some τ => exact absurd (h.fresh _ (Nat.le_refl _)) (h.retTime _ _ hrr).2

theorem tickTravCas_hok {n : Nat} (x : HCtx m s) {weak : Bool} {st : TState K P} {hash : BitVec 64} {mode : Mode}
    {shift : Nat} {cur : Loc} {parent : Option (Loc × Word)} {node : Word} {new : Node P} {kind : TKind P}
    (hi : HPCInv m s n (.travCas st hash mode shift cur parent node new kind)) :
    HTickOK m s n (tickTravCas m weak st hash mode shift cur parent node new kind) := by
  obtain ⟨d, rfl, ht, hcas⟩ := hi
  have hs := Nat.le_of_lt x.hs
  obtain ⟨w, hr, hat, hheld, hok⟩ := x.read ht.loc
  have hnn := x.h.fresh _ (Nat.le_refl _)
  by_cases hsucc : w = node ∧ weak = false
  · obtain ⟨rfl, rfl⟩ := hsucc
    have hsw := fun w' new ret => swing_swung hat hnn w' new ret
    -- the freshly published data node
    have hnew : ∀ (l : List P) (ret : Option Nat), ret ≠ some m.next →
        (m.swing cur ⟨some m.next, false, true⟩ (some (.data l)) ret).bump.mem m.next = some (.data l) ∧
        Held (m.swing cur ⟨some m.next, false, true⟩ (some (.data l)) ret).bump s m.next := by
      intro l ret hret
      have h1 : (m.swing cur ⟨some m.next, false, true⟩ (some (.data l)) ret).bump.mem m.next = some (.data l) := by
        rw [(hsw _ _ _).fresh _ hnn]; simp
      refine ⟨h1, by rw [h1]; simp, ?_⟩
      intro τ hτ
      rw [(hsw _ _ _).retired, if_neg hret, x.h.next_unretired] at hτ
      cases hτ
    cases hcas with
    | fresh p q hst =>
      subst hst
      have hinv := x.h.setLeaf hat rfl isLeaf_null (l := [p]) (by simp) (hsw _ _ _)
      have hevo : Evo m (m.swing cur ⟨some m.next, false, true⟩ (some (.data [p])) none).bump :=
        HSwung.evo (hsw _ _ _) x.h hat rfl (by intro a e; cases e)
      cases mode with
      | overwrite =>
        have htick : tickTravCas m false (.created q) hash .overwrite (LEVEL_BITS * d) cur parent Word.null (.data [p]) .fresh
            = (m.swing cur ⟨some m.next, false, true⟩ (some (.data [p])) none, (.ret (.op (.opt none)) [] : Next K P)) := by
          simp [tickTravCas, hr, finishTrav]; rfl
        rw [htick]
        exact ⟨hinv, hevo, by simp, by simp [Ret.payloads]⟩
      | ifMissing =>
        have htick : tickTravCas m false (.created q) hash .ifMissing (LEVEL_BITS * d) cur parent Word.null (.data [p]) .fresh
            = (m.swing cur ⟨some m.next, false, true⟩ (some (.data [p])) none,
              (.ret (.op (.eon (.new p))) [m.next] : Next K P)) := by
          simp [tickTravCas, hr, finishTrav, TState.payload]; rfl
        rw [htick]
        obtain ⟨h1, h2⟩ := hnew [p] none (by simp)
        exact ⟨hinv, hevo, hret_one h2 h1 (by simp [Ret.payloads, ExistingOrNew.intoInner])⟩
    | split a i hh hd16 =>
      have hlen : (pre hash d).length = d := pre_length _ ht.len
      have h1 := hsw ⟨some m.next, false, false⟩ (some (Node.inner (upd (fun _ => Word.null) i ⟨some a, false, true⟩)
        (pre hash d))) none
      have hinv := x.h.split hat rfl (by omega) rfl rfl i h1
      have hevo := HSwung.evo h1 x.h hat rfl (by intro a e; cases e)
      have htick : tickTravCas m false st hash mode (LEVEL_BITS * d) cur parent ⟨some a, false, true⟩
          (Node.inner (upd (fun _ => Word.null) i ⟨some a, false, true⟩) (pre hash d)) .split
          = (m.swing cur ⟨some m.next, false, false⟩ (some (Node.inner (upd (fun _ => Word.null) i ⟨some a, false, true⟩)
            (pre hash d))) none, (.goto (.trav st hash mode (LEVEL_BITS * d) cur parent) false : Next K P)) := by
        simp [tickTravCas, hr]; rfl
      rw [htick]
      exact ⟨hinv, hevo, d, rfl, ht.evo hevo hs⟩
    | replace a p q items new found hst hh hm hfound =>
      subst hst
      have hlf : (⟨some a, false, true⟩ : Word).isLeaf := Or.inr rfl
      have hinv := x.h.setLeaf hat rfl hlf (l := new ++ [p]) (by simp) (hsw _ _ _)
      have hevo : Evo m (m.swing cur ⟨some m.next, false, true⟩ (some (.data (new ++ [p]))) (some a)).bump :=
        HSwung.evo (hsw _ _ _) x.h hat rfl (by intro b e; cases e; rfl)
      have hane : some a ≠ some m.next := by intro e; cases e; rw [hnn] at hm; cases hm
      obtain ⟨h1, h2⟩ := hnew (new ++ [p]) (some a) hane
      have fin : ∀ (nx : Next K P), tickTravCas m false (.created q) hash mode (LEVEL_BITS * d) cur parent ⟨some a, false, true⟩
          (.data (new ++ [p])) (.replace found)
          = (m.swing cur ⟨some m.next, false, true⟩ (some (.data (new ++ [p]))) (some a), nx) →
          HNextInv (m.swing cur ⟨some m.next, false, true⟩ (some (.data (new ++ [p]))) (some a)).bump s n nx →
          HTickOK m s n (tickTravCas m false (.created (K := K) q) hash mode (LEVEL_BITS * d) cur parent ⟨some a, false, true⟩
          (.data (new ++ [p])) (.replace found)) := by
        intro nx e hx
        rw [e]
        exact ⟨hinv, hevo, hx⟩
      cases found with
      | none =>
        cases mode with
        | overwrite =>
          refine fin (.ret (.op (.opt none)) []) ?_ ⟨by simp, by simp [Ret.payloads]⟩
          simp [tickTravCas, hr, finishTrav]; rfl
        | ifMissing =>
          refine fin (.ret (.op (.eon (.new p))) [m.next]) ?_
            (hret_one h2 h1 (by simp [Ret.payloads, ExistingOrNew.intoInner]))
          simp [tickTravCas, hr, finishTrav, TState.payload]; rfl
      | some e =>
        have he := hfound e rfl
        cases mode with
        | overwrite =>
          refine fin (.ret (.op (.opt (some e))) [a]) ?_
            (hret_one (hh.evo hevo hs) (hevo.data _ _ hm)
              (by intro y hy; simp [Ret.payloads] at hy; subst hy; exact he))
          simp [tickTravCas, hr, finishTrav, ExistingOrNew.intoInner]; rfl
        | ifMissing =>
          refine fin (.ret (.op (.eon (.existing e))) [a]) ?_
            (hret_one (hh.evo hevo hs) (hevo.data _ _ hm)
              (by intro y hy; simp [Ret.payloads, ExistingOrNew.intoInner] at hy; subst hy; exact he))
          simp [tickTravCas, hr, finishTrav]; rfl
  · have htick : tickTravCas m weak st hash mode (LEVEL_BITS * d) cur parent node new kind
        = (m, (.goto (.trav st hash mode (LEVEL_BITS * d) cur parent) false : Next K P)) := by
      simp [tickTravCas, hr, hsucc]
    rw [htick]
    exact .quiet x ⟨d, rfl, ht.evo (Evo.bump m) hs⟩

theorem hTickRem_ok {n : Nat} (x : HCtx m s) (o : Answers P) {key : K} {shift : Nat} {cur : Loc}
    {levels : List (Loc × Word)}
    (hi : HPCInv m s n (PC.rem (P := P) key shift cur levels)) : HNextInv m.bump s n (hTickRem o m key shift cur levels) := by
  obtain ⟨d, rfl, ht⟩ := hi
  have hs := Nat.le_of_lt x.hs
  have ev := Evo.bump m
  obtain ⟨q, hloc, hql⟩ := ht.loc
  obtain ⟨w, hr, hat, hheld, hok⟩ := x.read hloc
  simp only [hTickRem, hr]
  have retnone : HRetOK m.bump s (.op (.opt none)) [] := ⟨by simp, by simp [Ret.payloads]⟩
  cases hp : w.ptr with
  | none => exact retnone
  | some a =>
    simp only
    cases hcond : w.cond with
    | true =>
      simp only [if_true]
      cases hlv : levels with
      | nil =>
        have hd0 : d = 0 := by rw [← ht.levels_len, hlv]; rfl
        have hq : q = [] := by rw [hd0] at hql; simpa using hql
        subst hq
        have hroot : cur = .root := by
          cases cur with
          | root => rfl
          | slot b i =>
            obtain ⟨cs, p, -, h2, -⟩ := hloc
            simp at h2
        subst hroot
        obtain ⟨-, rfl⟩ := hat
        rw [x.h.rootClean] at hcond; cases hcond
      | cons y rest => exact enterPrune_hnext ((ht.levels_ok _ (by rw [hlv]; simp)).evo ev hs) trivial
    | false =>
      simp only [Bool.false_eq_true, if_false]
      cases hdt : w.data with
      | true =>
        obtain ⟨items, h1, h2, h3⟩ := x.load hok hheld hp hdt
        simp only [if_true, h1]
        cases hf : (filterAns o.equal 0 items).getLast? with
        | none => exact retnone
        | some deleted =>
          exact ⟨d, a, items, rfl, ht.evo ev hs, word_eq_data hp hdt hcond, (hheld a hp).evo ev hs,
            h2, filterAns_mem (List.mem_of_getLast? hf)⟩
      | false =>
        simp only [Bool.false_eq_true, if_false]
        obtain ⟨h1, h2, ⟨cs, h3⟩, h4⟩ := x.descend hok hheld hp hdt (bitsAt o.hash (LEVEL_BITS * d))
        rw [hql] at h1
        have hml : ¬ MAX_LEVELS ≤ levels.length := by rw [ht.levels_len]; simp [MAX_LEVELS, LEVEL_BITS]; omega
        have hsh : ¬ HASH_BITS ≤ LEVEL_BITS * d := by simp only [LEVEL_BITS, HASH_BITS]; omega
        simp only [hml, hsh, if_false]
        refine ⟨d + 1, rfl, ⟨by omega, by simp [ht.levels_len], ⟨_, h4.evo ev hs, by simp [hql]⟩, ?_⟩⟩
        intro y hy
        simp at hy
        rcases hy with rfl | hy
        · exact PairOK.evo ⟨a, cs, _, word_eq_inner hp hdt hcond, h3, h2, hloc⟩ ev hs
        · exact (ht.levels_ok y hy).evo ev hs

theorem tickRemCas_hok {n : Nat} (x : HCtx m s) {weak : Bool} {key : K} {shift : Nat} {cur : Loc}
    {levels : List (Loc × Word)} {node : Word} {new : List P} {deleted : P}
    (hi : HPCInv m s n (PC.remCas key shift cur levels node new deleted)) :
    HTickOK m s n (tickRemCas m weak key shift cur levels node new deleted) := by
  obtain ⟨d, a, items, rfl, ht, rfl, hh, hm, hdel⟩ := hi
  have hs := Nat.le_of_lt x.hs
  obtain ⟨q, hloc, hql⟩ := ht.loc
  obtain ⟨w, hr, hat, hheld, hok⟩ := x.read hloc
  have hnn := x.h.fresh _ (Nat.le_refl _)
  by_cases hsucc : w = ⟨some a, false, true⟩ ∧ weak = false
  · obtain ⟨rfl, rfl⟩ := hsucc
    have hlf : (⟨some a, false, true⟩ : Word).isLeaf := Or.inr rfl
    have hsw := fun w' new ret => swing_swung hat hnn w' new ret
    have fin : ∀ m1 : Mem P, tickRemCas m false key (LEVEL_BITS * d) cur levels ⟨some a, false, true⟩ new deleted
          = (m1, (enterClean deleted a levels : Next K P)) →
        HMemInv m1.bump → Evo m m1.bump →
        HTickOK m s n (tickRemCas m false key (LEVEL_BITS * d) cur levels ⟨some a, false, true⟩ new deleted) := by
      intro m1 htick hinv hevo
      rw [htick]
      exact ⟨hinv, hevo, enterClean_hnext ⟨hh.evo hevo hs, ⟨items, hevo.data _ _ hm, hdel⟩,
        fun y hy => (ht.levels_ok y hy).evo hevo hs⟩⟩
    cases hn : new with
    | nil =>
      rw [hn] at fin
      refine fin (m.swing cur Word.null none (some a)) ?_ (x.h.clearLeaf hat rfl hlf (hsw _ _ _))
        (HSwung.evo (hsw _ _ _) x.h hat rfl (by intro b e; cases e; rfl))
      simp [tickRemCas, hr]; rfl
    | cons y rest =>
      rw [hn] at fin
      refine fin (m.swing cur ⟨some m.next, false, true⟩ (some (.data (y :: rest))) (some a)) ?_
        (x.h.setLeaf hat rfl hlf (by simp) (hsw _ _ _))
        (HSwung.evo (hsw _ _ _) x.h hat rfl (by intro b e; cases e; rfl))
      simp [tickRemCas, hr]; rfl
  · have htick : tickRemCas m weak key (LEVEL_BITS * d) cur levels ⟨some a, false, true⟩ new deleted
        = (m, (.goto (.rem key (LEVEL_BITS * d) cur levels) false : Next K P)) := by
      simp [tickRemCas, hr, hsucc]
    rw [htick]
    exact .quiet x ⟨d, rfl, ht.evo (Evo.bump m) hs⟩

theorem tickCount_hok {n : Nat} (x : HCtx m s) {deleted : P} {ref : Nat} {parent : Loc} {child : Word}
    {rest : List (Loc × Word)} {i : Fin 16} {cnt : Nat}
    (hi : HPCInv m s n (PC.count (K := K) deleted ref parent child rest i cnt)) :
    HNextInv (K := K) m.bump s n (tickCount m deleted ref parent child rest i cnt) := by
  obtain ⟨hcl, hpair⟩ := hi
  have hs := Nat.le_of_lt x.hs
  have ev := Evo.bump m
  have hpair' := hpair.evo ev hs
  have hcl' := hcl.evo ev hs
  obtain ⟨a, cs, q, h1, h2, h3, h4⟩ := hpair
  simp only at h1
  subst h1
  obtain ⟨w, hr, -, -, -⟩ := x.read (loc := .slot a i) (q := q ++ [i]) ⟨cs, q, h2, rfl, h3⟩
  simp only [tickCount, hr]
  split
  · exact ⟨hcl', hpair'⟩
  · generalize (if w.ptr.isSome = true then cnt + 1 else cnt) = cnt'
    by_cases hgt : 1 < cnt'
    · simp only [hgt, if_true]
      obtain ⟨l, e1, e2⟩ := hcl'.items
      exact hret_one hcl'.held e1 (by intro p hp; simp [Ret.payloads] at hp; subst hp; exact e2)
    · simp only [hgt, if_false]
      exact enterPrune_hnext hpair' hcl'

theorem tickPrune_hok {n : Nat} (x : HCtx m s) {parent : Loc} {child : Word} {i : Fin 16} {acc : PAcc}
    {k : Cont K P} (hi : HPCInv m s n (.prune parent child i acc k)) :
    HTickOK m s n (tickPrune m parent child i acc k) := by
  obtain ⟨hk, a, cs, q, rfl, hm, hh, hloc, hacc⟩ := hi
  have hs := Nat.le_of_lt x.hs
  obtain ⟨w, hr, hat, hheld, hok⟩ := x.read (loc := .slot a i) (q := q ++ [i]) ⟨cs, q, hm, rfl, hh⟩
  obtain ⟨cs', q', hm', -, rfl⟩ := hat
  rw [hm] at hm'; cases hm'
  have hevo := Evo.condemn i hm
  have hinv := (x.h.condemn i hm).bump
  have hwc := write_condemn i hm
  generalize hm1 : m.write (cs i).condemn (.slot a i) = m1 at *
  have hm1a : m1.mem a = some (.inner (upd cs i (cs i).condemn) q) := by rw [hwc]; simp
  have hsame : ∀ j, (cs j).cond = true → upd cs i (cs i).condemn j = cs j := by
    intro j hj
    by_cases e : j = i
    · subst e; simp only [upd_same]; cases hw : cs j; simp_all [Word.condemn]
    · simp [upd_other _ _ e]
  have hacc1 : AccOK m1.bump (upd cs i (cs i).condemn) i.val acc := hacc.evo hevo hsame
  have hpush : ∃ acc', acc.push m1 i (cs i) = .ok acc' := by
    have hload : ∀ b, (cs i).ptr = some b → (cs i).data = true → ∃ l, m1.loadData (cs i).erase = .ok l := by
      intro b hptr hd
      obtain ⟨l, h1, -⟩ := hok.of_data hptr hd
      have h2 : m1.mem b = some (.data l) := hevo.data b l h1
      have h3 : m1.freed b = false := by rw [hwc]; exact x.hfree b (hheld b hptr)
      exact ⟨l, by simp [Mem.loadData, hd, hptr, Mem.deref, h2, h3]⟩
    simp only [PAcc.push]
    split
    · exact ⟨_, rfl⟩
    · next b hptr =>
      split
      · next hd =>
        obtain ⟨l, h⟩ := hload b hptr hd
        rw [h]
        exact ⟨_, rfl⟩
      · exact ⟨_, rfl⟩
  obtain ⟨acc', hpush⟩ := hpush
  have hpush' : acc.push m1.bump i (upd cs i (cs i).condemn i) = .ok acc' := by
    have e : acc.push m1.bump i (upd cs i (cs i).condemn i) = acc.push m1 i (cs i) := by
      simp only [upd_same, PAcc.push, condemn_erase]; rfl
    rw [e]; exact hpush
  have hacc2 : AccOK m1.bump (upd cs i (cs i).condemn) (i.val + 1) acc' := by
    refine hacc1.push (by simp) ?_ hpush'
    intro b l h1 h2 h3
    simp only [upd_same, condemn_ptr, condemn_data] at h1 h2
    obtain ⟨l', h4, h5⟩ := hok.of_data h1 h2
    have h6 : m1.mem b = some (.data l') := hevo.data b l' h4
    have h7 : m1.mem b = some (.data l) := h3
    rw [h6] at h7; cases h7
    exact h5
  have hloc' := hloc.evo hevo hs
  have hh' := hh.evo hevo hs
  have hk' := hk.evo hevo hs
  by_cases hlast : i.val + 1 < 16
  · have htick : tickPrune m parent ⟨some a, false, false⟩ i acc k
        = (m1, .goto (.prune parent ⟨some a, false, false⟩ ⟨i.val + 1, hlast⟩ acc' k) false) := by
      simp [tickPrune, hr, hm1, hpush, hlast]
    rw [htick]
    exact ⟨hinv, hevo, hk', a, _, q, rfl, hm1a, hh', hloc', hacc2⟩
  · have htick : tickPrune m parent ⟨some a, false, false⟩ i acc k
        = (m1, .goto (.pruneCas parent ⟨some a, false, false⟩ acc' k) false) := by
      simp [tickPrune, hr, hm1, hpush, hlast]
    rw [htick]
    have h16 : i.val + 1 = 16 := by omega
    rw [h16] at hacc2
    exact ⟨hinv, hevo, hk', a, _, q, rfl, hm1a, hh', hloc', hacc2⟩

theorem tickPruneCas_hok {n : Nat} (x : HCtx m s) {parent : Loc} {child : Word} {acc : PAcc}
    {k : Cont K P} (hi : HPCInv m s n (.pruneCas parent child acc k)) :
    HTickOK m s n (tickPruneCas m parent child acc k) := by
  obtain ⟨hk, a, cs, q, rfl, hm, hh, hloc, hacc⟩ := hi
  have hs := Nat.le_of_lt x.hs
  obtain ⟨w, hr, hat, hheld, hok⟩ := x.read hloc
  have hnn := x.h.fresh _ (Nat.le_refl _)
  have hderef : m.deref a = some (.inner cs q) := by simp [Mem.deref, x.hfree a hh, hm]
  by_cases hsucc : w = ⟨some a, false, false⟩
  · subst hsucc
    have hsw := fun w' new ret => swing_swung hat hnn w' new ret
    have hdec := PAcc.decide_ok hacc q
    cases hd : acc.decide with
    | mk ins res =>
      rw [hd] at hdec
      cases ins with
      | word w' =>
        simp only at hdec
        have htick : tickPruneCas m parent ⟨some a, false, false⟩ acc k
            = (m.swing parent w' none (some a), afterPrune res k) := by
          simp [tickPruneCas, hr, hderef, hd]; rfl
        have hinv := x.h.pruned hat rfl rfl rfl hm (fun i => hacc.cond i i.isLt) hdec (hsw _ _ _)
        have hevo := HSwung.evo (hsw w' none (some a)) x.h hat rfl (by intro b e; cases e; rfl)
        rw [htick]
        exact ⟨hinv, hevo, afterPrune_hnext (hk.evo hevo hs)⟩
      | copy cells =>
        simp only at hdec
        have htick : tickPruneCas m parent ⟨some a, false, false⟩ acc k
            = (m.swing parent ⟨some m.next, false, false⟩ (some (.inner cells q)) (some a), afterPrune res k) := by
          simp [tickPruneCas, hr, hderef, hd]; rfl
        have hinv := x.h.pruned hat rfl rfl rfl hm (fun i => hacc.cond i i.isLt) hdec (hsw _ _ _)
        have hevo := HSwung.evo (hsw ⟨some m.next, false, false⟩ (some (.inner cells q)) (some a)) x.h hat rfl (by intro b e; cases e; rfl)
        rw [htick]
        exact ⟨hinv, hevo, afterPrune_hnext (hk.evo hevo hs)⟩
  · have htick : tickPruneCas m parent ⟨some a, false, false⟩ acc k = (m, afterPrune .casFail k) := by
      simp [tickPruneCas, hr, hderef, hsucc]
    rw [htick]
    exact .quiet x (afterPrune_hnext (hk.evo (Evo.bump m) hs))

/-- One step of a call, whatever it is doing and whatever user code answers. -/
theorem hTick_ok {n : Nat} (x : HCtx m s) (o : Answers P) (weak : Bool) {pc : PC K P} (hi : HPCInv m s n pc) :
    HTickOK m s n (hTick o m weak pc) := by
  cases pc with
  | get key hash cur => exact .quiet x (hTickGet_ok x o hi)
  | isEmpty => exact .quiet x ⟨by simp, trivial⟩
  | iterNew => exact .quiet x (tickIterNew_hok x)
  | iterNext lv out => exact .quiet x (tickIterNext_hok x hi)
  | trav st hash mode shift cur parent => exact .quiet x (hTickTrav_ok x o hi)
  | travCas st hash mode shift cur parent node new kind => exact tickTravCas_hok x hi
  | rem key shift cur levels => exact .quiet x (hTickRem_ok x o hi)
  | remCas key shift cur levels node new deleted => exact tickRemCas_hok x hi
  | count deleted ref parent child rest i cnt => exact .quiet x (tickCount_hok x hi)
  | prune parent child i acc k => exact tickPrune_hok x hi
  | pruneCas parent child acc k => exact tickPruneCas_hok x hi
end
end Contrie
