import Verif.Proof.WildSyn
/-
Steps that store nothing, and may have seen an old value of their location, with misbehaving user code; cf. `Verif/Proof/CohTick.lean`.
-/
set_option linter.unusedSectionVars false
namespace Contrie
variable {K P : Type}

/-- What a step sees: the memory `m`, but for the value `w` of location `ℓ`. -/
structure HLook (m mw : Mem P) (ℓ : Loc) (w : Word) : Prop where
  h : HMemInv m
  hs : 0 < m.clock
  seen : mw.read ℓ = some w
  ok : ∀ q, LocAt m 0 ℓ q → HWordOK m w q
  clean : ℓ = .root → w.cond = false
  same : ∀ w', mw.loadData w' = m.loadData w'
  inner : ∀ a c p, m.mem a = some (.inner c p) → ∃ c', mw.mem a = some (.inner c' p)
  freed : ∀ a, m.freed a = false
  freedw : ∀ a, mw.freed a = false

section
variable {m mw : Mem P} {ℓ : Loc} {w : Word} {weak : Bool}

theorem hwheld {w : Word} {q : List (Fin 16)} (hw : HWordOK m w q) : WHeld m 0 w := by
  intro a hp
  refine held_zero ?_
  cases hd : w.data with
  | true => obtain ⟨l, h1, -⟩ := hw.of_data hp hd; rw [h1]; simp
  | false => obtain ⟨l, h1⟩ := hw.of_inner hp hd; rw [h1]; simp

theorem HLook.read (x : HLook m mw ℓ w) {q : List (Fin 16)} (hl : LocAt m 0 ℓ q) :
    mw.read ℓ = some w ∧ WHeld m 0 w ∧ HWordOK m w q := ⟨x.seen, hwheld (x.ok q hl), x.ok q hl⟩

theorem HLook.load (x : HLook m mw ℓ w) {w' : Word} {q : List (Fin 16)} (hw : HWordOK m w' q) (_ : WHeld m 0 w')
    {a : Nat} (hp : w'.ptr = some a) (hd : w'.data = true) :
    ∃ items, mw.loadData w' = .ok items ∧ m.mem a = some (.data items) ∧ items ≠ [] := by
  obtain ⟨l, h1, h2⟩ := hw.of_data hp hd
  refine ⟨l, ?_, h1, h2⟩
  rw [x.same]
  simp [Mem.loadData, hd, hp, Mem.deref, x.freed a, h1]

theorem HLook.descend (x : HLook m mw ℓ w) {w : Word} {q : List (Fin 16)} (hw : HWordOK m w q) (hh : WHeld m 0 w)
    {a : Nat} (hp : w.ptr = some a) (hd : w.data = false) (i : Fin 16) :
    q.length < 16 ∧ Held m 0 a ∧ (∃ c, m.mem a = some (.inner c q)) ∧ LocAt m 0 (.slot a i) (q ++ [i]) := by
  obtain ⟨c, hm⟩ := hw.of_inner hp hd
  exact ⟨(x.h.nodeOK a c _ hm).1, hh a hp, ⟨c, hm⟩, c, _, hm, rfl, hh a hp⟩

theorem lTickGet {n : Nat} {cur : Loc} (x : HLook m mw cur w) (o : Answers P) {key : K} {hash : BitVec 64}
    (hi : HPCInv m 0 n (PC.get (P := P) key hash cur)) : HNextInv m.bump 0 n (hTickGet o mw key hash cur) := by
  obtain ⟨h, d, hd, htk, rfl, hloc⟩ := hi
  have ev := Evo.bump m
  have hs := Nat.le_of_lt x.hs
  obtain ⟨hr, hheld, hok⟩ := x.read hloc
  simp only [hTickGet, hr]
  cases hp : w.ptr with
  | none => exact ⟨by simp, by simp [Ret.payloads]⟩
  | some a =>
    cases hdt : w.data with
    | true =>
      obtain ⟨items, h1, h2, h3⟩ := x.load hok hheld hp hdt
      simp only [if_true, h1]
      cases hf : findAns o.equal 0 items with
      | none => exact ⟨by simp, by simp [Ret.payloads]⟩
      | some p =>
        exact hret_one ((hheld a hp).evo ev hs) h2
          (by intro p' hp'; simp [Ret.payloads] at hp'; subst hp'; exact findAns_mem hf)
    | false =>
      obtain ⟨h1, h2, h3, h4⟩ := x.descend hok hheld hp hdt (bitsAt h (LEVEL_BITS * d))
      rw [pre_length _ hd] at h1
      refine ⟨h, d + 1, by omega, by omega, shift_succ _ _, ?_⟩
      rw [bitsAt_shift, pre_succ _ h1]
      exact h4.evo ev hs

theorem lTickTrav {n : Nat} {cur : Loc} (x : HLook m mw cur w) (o : Answers P) {st : TState K P} {hash : BitVec 64} {mode : Mode}
    {shift : Nat} {parent : Option (Loc × Word)}
    (hi : HPCInv m 0 n (.trav st hash mode shift cur parent)) :
    HNextInv m.bump 0 n (hTickTrav o mw st hash mode shift cur parent) := by
  obtain ⟨d, rfl, ht⟩ := hi
  have hs := Nat.le_of_lt x.hs
  have ev := Evo.bump m
  obtain ⟨hr, hheld, hok⟩ := x.read ht.loc
  simp only [hTickTrav, hr]
  have hbits : ∀ {d : Nat}, LEVEL_BITS * d < HASH_BITS ↔ d < 16 := by
    intro d; simp only [LEVEL_BITS, HASH_BITS]; omega
  cases hcond : w.cond with
  | true =>
    simp only [if_true]
    cases hpar : parent with
    | none =>
      have := ht.par0 hpar
      subst this
      rw [x.clean rfl] at hcond; cases hcond
    | some y => exact enterPrune_hnext ((ht.par _ hpar).evo ev hs) trivial
  | false =>
    simp only [Bool.false_eq_true, if_false]
    cases hp : w.ptr with
    | none =>
      refine ⟨d, rfl, ht.evo ev hs, ?_⟩
      have hnull : w = Word.null := by
        have : w.data = false := by simpa [HWordOK, hp] using hok
        cases w; simp_all [Word.null]
      rw [hnull]; exact .fresh _ _ rfl
    | some a =>
      cases hdt : w.data with
      | true =>
        obtain ⟨items, h1, h2, h3⟩ := x.load hok hheld hp hdt
        simp only [if_true, h1]
        cases items with
        | nil => exact absurd rfl h3
        | cons d0 rest =>
          simp only
          split
          · next hsp =>
            obtain ⟨hne, hd16⟩ := hsp
            rw [hbits] at hd16
            split
            · exact rfl
            · refine ⟨d, rfl, (ht.evo ev hs), ?_⟩
              rw [pathTo_eq_take hash ht.len, word_eq_data hp hdt hcond]
              exact .split a _ ((hheld a hp).evo ev hs) hd16
          · next hsp =>
            split
            · next hm =>
              refine ⟨d, rfl, ht.evo ev hs, ?_⟩
              rw [word_eq_data hp hdt hcond]
              exact .replace a _ _ (d0 :: rest) _ _ rfl ((hheld a hp).evo ev hs) h2 (fun e he => findAns_mem he)
            · next hm =>
              cases hf : findAns o.equal 0 (d0 :: rest) with
              | none => rw [hf] at hm; simp at hm
              | some e =>
                rw [hf] at hm
                have hmode : mode = .ifMissing := by
                  cases mode with
                  | ifMissing => rfl
                  | overwrite => simp at hm
                subst hmode
                exact hret_one ((hheld a hp).evo ev hs) h2 (by
                  intro p hp'
                  simp [Ret.payloads, ExistingOrNew.intoInner] at hp'
                  subst hp'
                  exact findAns_mem hf)
      | false =>
        simp only [Bool.false_eq_true, if_false]
        obtain ⟨h1, h2, ⟨cs, h3⟩, h4⟩ := x.descend hok hheld hp hdt (bitsAt hash (LEVEL_BITS * d))
        rw [pre_length _ ht.len] at h1
        have hsh : ¬ HASH_BITS ≤ LEVEL_BITS * d := by have := hbits.mpr h1; omega
        simp only [hsh, if_false]
        rw [← pre_succ _ h1] at h4
        refine ⟨d + 1, rfl, ⟨by omega, h4.evo ev hs, (by intro h; cases h), ?_⟩⟩
        intro y hy
        cases hy
        exact PairOK.evo ⟨a, cs, _, word_eq_inner hp hdt hcond, h3, h2, ht.loc⟩ ev hs

theorem lTickRem {n : Nat} {cur : Loc} (x : HLook m mw cur w) (o : Answers P) {key : K} {shift : Nat}
    {levels : List (Loc × Word)}
    (hi : HPCInv m 0 n (PC.rem (P := P) key shift cur levels)) : HNextInv m.bump 0 n (hTickRem o mw key shift cur levels) := by
  obtain ⟨d, rfl, ht⟩ := hi
  have hs := Nat.le_of_lt x.hs
  have ev := Evo.bump m
  obtain ⟨q, hloc, hql⟩ := ht.loc
  obtain ⟨hr, hheld, hok⟩ := x.read hloc
  simp only [hTickRem, hr]
  have retnone : HRetOK m.bump 0 (.op (.opt none)) [] := ⟨by simp, by simp [Ret.payloads]⟩
  cases hp : w.ptr with
  | none => exact retnone
  | some a =>
    simp only
    cases hcond : w.cond with
    | true =>
      simp only [if_true]
      cases hlv : levels with
      | nil =>
        have hd0 : d = 0 := by rw [← ht.levels_len, hlv]; rfl
        have hq : q = [] := by rw [hd0] at hql; simpa using hql
        subst hq
        have hroot : cur = .root := by
          cases cur with
          | root => rfl
          | slot b i =>
            obtain ⟨cs, p, -, h2, -⟩ := hloc
            simp at h2
        subst hroot
        rw [x.clean rfl] at hcond; cases hcond
      | cons y rest => exact enterPrune_hnext ((ht.levels_ok _ (by rw [hlv]; simp)).evo ev hs) trivial
    | false =>
      simp only [Bool.false_eq_true, if_false]
      cases hdt : w.data with
      | true =>
        obtain ⟨items, h1, h2, h3⟩ := x.load hok hheld hp hdt
        simp only [if_true, h1]
        cases hf : (filterAns o.equal 0 items).getLast? with
        | none => exact retnone
        | some deleted =>
          exact ⟨d, a, items, rfl, ht.evo ev hs, word_eq_data hp hdt hcond, (hheld a hp).evo ev hs,
            h2, filterAns_mem (List.mem_of_getLast? hf)⟩
      | false =>
        simp only [Bool.false_eq_true, if_false]
        obtain ⟨h1, h2, ⟨cs, h3⟩, h4⟩ := x.descend hok hheld hp hdt (bitsAt o.hash (LEVEL_BITS * d))
        rw [hql] at h1
        have hml : ¬ MAX_LEVELS ≤ levels.length := by rw [ht.levels_len]; simp [MAX_LEVELS, LEVEL_BITS]; omega
        have hsh : ¬ HASH_BITS ≤ LEVEL_BITS * d := by simp only [LEVEL_BITS, HASH_BITS]; omega
        simp only [hml, hsh, if_false]
        refine ⟨d + 1, rfl, ⟨by omega, by simp [ht.levels_len], ⟨_, h4.evo ev hs, by simp [hql]⟩, ?_⟩⟩
        intro y hy
        simp at hy
        rcases hy with rfl | hy
        · exact PairOK.evo ⟨a, cs, _, word_eq_inner hp hdt hcond, h3, h2, hloc⟩ ev hs
        · exact (ht.levels_ok y hy).evo ev hs

theorem lTickCount {n : Nat} (x : HLook m mw ℓ w) {deleted : P} {ref : Nat} {parent : Loc} {child : Word}
    {rest : List (Loc × Word)} {i : Fin 16} {cnt : Nat}
    (hr : ∀ a, child.ptr = some a → mw.read (.slot a i) = some w)
    (hi : HPCInv m 0 n (PC.count (K := K) deleted ref parent child rest i cnt)) :
    HNextInv (K := K) m.bump 0 n (tickCount mw deleted ref parent child rest i cnt) := by
  obtain ⟨hcl, hpair⟩ := hi
  have hs := Nat.le_of_lt x.hs
  have ev := Evo.bump m
  have hpair' := hpair.evo ev hs
  have hcl' := hcl.evo ev hs
  obtain ⟨a, cs, q, h1, h2, h3, h4⟩ := hpair
  simp only at h1
  subst h1
  simp only [tickCount, hr a rfl]
  split
  · exact ⟨hcl', hpair'⟩
  · generalize (if w.ptr.isSome = true then cnt + 1 else cnt) = cnt'
    by_cases hgt : 1 < cnt'
    · simp only [hgt, if_true]
      obtain ⟨l, e1, e2⟩ := hcl'.items
      exact hret_one hcl'.held e1 (by intro p hp; simp [Ret.payloads] at hp; subst hp; exact e2)
    · simp only [hgt, if_false]
      exact enterPrune_hnext hpair' hcl'

theorem lTickIterNext {n : Nat} (x : HLook m mw ℓ w) {lv : List (Word × Nat)} {out : List P}
    (ha : ∀ ℓ' o, (PC.iterNext lv out : PC K P).access .code = some (ℓ', o) → ℓ' = ℓ)
    (hi : HPCInv m 0 n (PC.iterNext (K := K) lv out)) : HNextInv (K := K) m.bump 0 n (tickIterNext mw lv out) := by
  have ev := Evo.bump m
  have hs := Nat.le_of_lt x.hs
  obtain ⟨hst, hout⟩ := hi
  have go : ∀ lv' out', HStack m 0 lv' → OutOK m 0 out' →
      HNextInv (K := K) m.bump 0 n (.goto (.iterNext lv' out') false) :=
    fun lv' out' h1 h2 => ⟨h1.evo ev hs, h2.evo ev hs⟩
  cases lv with
  | nil => exact ⟨by simp, hout.evo ev hs⟩
  | cons y rest =>
    obtain ⟨w0, idx⟩ := y
    obtain ⟨⟨q, hok, hheld, hlen⟩, hrest⟩ := hst
    simp only [tickIterNext]
    cases hp : w0.ptr with
    | none => exact go rest out hrest hout
    | some a =>
      cases hd : w0.data with
      | true =>
        obtain ⟨items, h1, h2, h3⟩ := x.load hok hheld hp hd
        simp only [if_true, h1]
        cases hg : items[idx]? with
        | some p =>
          refine go _ _ ⟨⟨q, hok, hheld, hlen⟩, hrest⟩ ?_
          intro p' hp'
          rcases List.mem_append.mp hp' with h4 | h4
          · exact hout p' h4
          · simp at h4; subst h4
            exact ⟨a, items, hheld a hp, h2, List.mem_of_getElem? hg⟩
        | none => exact go rest out hrest hout
      | false =>
        simp only [Bool.false_eq_true, if_false]
        obtain ⟨cs, hm⟩ := hok.of_inner hp hd
        have hq := (x.h.nodeOK a cs q hm).1
        split
        · next hi16 =>
          have hloc : LocAt m 0 (.slot a ⟨idx, hi16⟩) (q ++ [⟨idx, hi16⟩]) := ⟨cs, q, hm, rfl, hheld a hp⟩
          have hℓ := ha (.slot a ⟨idx, hi16⟩) _ (by simp only [PC.access, hp, hd, hi16, dif_pos]; rfl)
          rw [hℓ] at hloc
          obtain ⟨hr, hheld', hok'⟩ := x.read hloc
          rw [← hℓ] at hr
          simp only [hr]
          have hml : ¬ MAX_LEVELS + 1 ≤ ((w0, idx) :: rest).length := by
            simp [MAX_LEVELS, LEVEL_BITS]; omega
          rw [if_neg hml]
          exact go _ _ ⟨⟨_, hok', hheld', by simp [hlen]⟩, ⟨q, hok, hheld, hlen⟩, hrest⟩ hout
        · exact go rest out hrest hout


/-! ### Failing CASes -/

theorem lTickTravCas {n : Nat} (o : Answers P) {st : TState K P} {hash : BitVec 64} {mode : Mode}
    {shift : Nat} {cur : Loc} {parent : Option (Loc × Word)} {node : Word} {new : Node P} {kind : TKind P}
    (hi : HPCInv m 0 n (.travCas st hash mode shift cur parent node new kind))
    (x : HLook m mw cur w) (hw : (PC.travCas st hash mode shift cur parent node new kind).writes mw weak = false) :
    HNextInv m.bump 0 n (hTick o mw weak (.travCas st hash mode shift cur parent node new kind)).2 := by
  obtain ⟨d, rfl, ht, -⟩ := hi
  have hn : ¬ (w = node ∧ weak = false) := by
    intro e
    simp [PC.writes, PC.access, PC.stores, x.seen, e] at hw
  have : (hTick o mw weak (.travCas st hash mode (LEVEL_BITS * d) cur parent node new kind)).2 =
      .goto (.trav st hash mode (LEVEL_BITS * d) cur parent) false := by
    simp only [hTick, tickTravCas, x.seen, hn, if_false]
  rw [this]
  exact ⟨d, rfl, ht.evo (Evo.bump m) (Nat.zero_le _)⟩

theorem lTickRemCas {n : Nat} (o : Answers P) {key : K} {shift : Nat} {cur : Loc} {levels : List (Loc × Word)}
    {node : Word} {new : List P} {deleted : P}
    (hi : HPCInv m 0 n (.remCas key shift cur levels node new deleted))
    (x : HLook m mw cur w) (hw : (PC.remCas key shift cur levels node new deleted).writes mw weak = false) :
    HNextInv m.bump 0 n (hTick o mw weak (.remCas key shift cur levels node new deleted)).2 := by
  obtain ⟨d, a, items, rfl, ht, -⟩ := hi
  have hn : ¬ (w = node ∧ weak = false) := by
    intro e
    simp [PC.writes, PC.access, PC.stores, x.seen, e] at hw
  have : (hTick o mw weak (.remCas key (LEVEL_BITS * d) cur levels node new deleted)).2 =
      .goto (.rem key (LEVEL_BITS * d) cur levels) false := by
    simp only [hTick, tickRemCas, x.seen, hn, if_false]
  rw [this]
  exact ⟨d, rfl, ht.evo (Evo.bump m) (Nat.zero_le _)⟩

theorem lTickPruneCas {n : Nat} (o : Answers P) {parent : Loc} {child : Word} {acc : PAcc} {k : Cont K P}
    (hi : HPCInv m 0 n (.pruneCas parent child acc k))
    (x : HLook m mw parent w) (hw : (PC.pruneCas parent child acc k).writes mw weak = false) :
    HNextInv m.bump 0 n (hTick o mw weak (.pruneCas parent child acc k)).2 := by
  obtain ⟨hk, a, cs, q, rfl, hm, -⟩ := hi
  have hn : ¬ (w = ⟨some a, false, false⟩) := by
    intro e
    simp [PC.writes, PC.access, PC.stores, x.seen, e] at hw
  obtain ⟨c', hc'⟩ := x.inner a cs q hm
  have : (hTick o mw weak (.pruneCas parent ⟨some a, false, false⟩ acc k)).2 = afterPrune .casFail k := by
    simp [hTick, tickPruneCas, x.seen, Mem.deref, x.freedw, hc', hn]
  rw [this]
  exact afterPrune_hnext (hk.evo (Evo.bump m) (Nat.zero_le _))

/-- Steps that store nothing. -/
theorem lTick {n : Nat} (o : Answers P) {pc : PC K P} (hi : HPCInv m 0 n pc) {od : LoadOrd}
    (ha : pc.access .code = some (ℓ, od)) (x : HLook m mw ℓ w) (hw : pc.writes mw weak = false) :
    HNextInv m.bump 0 n (hTick o mw weak pc).2 := by
  have ev := Evo.bump m
  cases pc with
  | isEmpty => exact ⟨by simp, trivial⟩
  | iterNew =>
    cases ha
    have hr : mw.root = w := by simpa [Mem.read] using x.seen
    have hok := x.ok [] rfl
    simp only [hTick, tickIterNew, hr]
    exact ⟨⟨⟨[], hok.evo ev, (hwheld hok).evo ev (Nat.zero_le _), rfl⟩, trivial⟩, (by intro p hp; cases hp)⟩
  | iterNext lv out =>
    refine lTickIterNext x ?_ hi
    intro ℓ' o' h
    rw [ha] at h; cases h; rfl
  | get key hash cur => cases ha; exact lTickGet x o hi
  | trav st hash mode shift cur parent => cases ha; exact lTickTrav x o hi
  | travCas st hash mode shift cur parent node new kind => cases ha; exact lTickTravCas o hi x hw
  | rem key shift cur levels => cases ha; exact lTickRem x o hi
  | remCas key shift cur levels node new deleted => cases ha; exact lTickRemCas o hi x hw
  | count deleted ref parent child rest i cnt =>
    refine lTickCount x ?_ hi
    intro a hp
    simp only [PC.access, hp, Option.map_some, Option.some.injEq, Prod.mk.injEq] at ha
    rw [ha.1]; exact x.seen
  | prune parent child i acc k =>
    exfalso
    simp [PC.writes, ha, x.seen, PC.stores] at hw
  | pruneCas parent child acc k => cases ha; exact lTickPruneCas o hi x hw

theorem hLook_write (h : HMemInv m) (hs : 0 < m.clock) (hf : ∀ a, m.freed a = false) {q : List (Fin 16)} (hq : LocAt m 0 ℓ q)
    (hok : HWordOK m w q) (hc : ℓ = .root → w.cond = false) : HLook m (m.write w ℓ) ℓ w where
  h := h
  hs := hs
  seen := by
    cases ℓ with
    | root => rfl
    | slot a i =>
      obtain ⟨c, p, h1, -⟩ := hq
      simp [Mem.write, h1, Mem.read, Mem.deref, hf a]
  ok := by intro q' hq'; rw [hq'.unique hq]; exact hok
  clean := hc
  same := write_loadData m w ℓ
  inner := (write_frame m w ℓ).2.2.2.2.2.1
  freed := hf
  freedw := by intro a; rw [(write_frame m w ℓ).2.2.2.1]; exact hf a
end
end Contrie
