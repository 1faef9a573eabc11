import Verif.Proof.TickTrav
/-
Steps of `remove` and `prune`.
-/
set_option linter.unusedSectionVars false
namespace Contrie
variable {K P : Type} [DecidableEq K]
variable {cfg : Config K P} {A : Nat → AMap K P} {W : Nat → Option (LP K P)} {m : Mem P} {s : Nat} {weak : Bool}

theorem filter_getLast (key : P → K) (k : K) (l : List P) (hn : (l.map key).Nodup) :
    (l.filter (fun x => decide (key x = k))).getLast? = l.find? (fun x => decide (key x = k)) := by
  induction l with
  | nil => rfl
  | cons y l ih =>
    simp only [List.map_cons, List.nodup_cons] at hn
    by_cases h : key y = k
    · have : l.filter (fun x => decide (key x = k)) = [] := by
        rw [List.filter_eq_nil_iff]
        intro z hz hk
        simp at hk
        exact hn.1 (by rw [h, ← hk]; exact List.mem_map_of_mem hz)
      simp [List.filter_cons, h, this]
    · simp [List.filter_cons, h, ih hn.2]

theorem tickRem_ok {c : Call K P} (x : Ctx cfg A m c.inv) {key : K} {shift : Nat} {cur : Loc}
    {levels : List (Loc × Word)}
    (hpc : c.pc = .rem key shift cur levels) (hi : PCInv cfg A m c) (hl : LinInv W m.clock c)
    (hW : W m.clock = lpOf cfg m weak c) : TickOK cfg A W m c (tick cfg m weak c.pc) := by
  have hWn : W m.clock = none := by rw [hW]; simp only [lpOf, hpc]; split <;> rfl
  simp only [PCInv, hpc] at hi
  simp only [LinInv, hpc, PC.taken] at hl
  have hl' : NotYet W m.bump.clock c.inv := NotYet.succ hl hWn
  obtain ⟨hreq, hcalls, d, rfl, ht⟩ := hi
  have hs := Nat.le_of_lt x.hs
  have ev := Evo.bump m
  simp only [hpc, tick]
  refine .quiet x hWn ?_
  obtain ⟨w, hr, hat, hheld, hok⟩ := x.read ht.loc
  simp only [tickRem, hr]
  have retnone : m.leafVal cfg key w = some none → RetOK cfg A W m.bump c (.op (.opt none)) [] := by
    intro hv
    refine ⟨by simp, ?_⟩
    simp only [hreq]
    refine ⟨_, rfl, Or.inr ⟨hl', ?_⟩, by simp [Ret.payloads], hcalls⟩
    obtain ⟨τ, t1, t2, t3⟩ := x.leaf ht.loc hat (pre_prefix _ _) hv
    refine ⟨τ, t1, Nat.lt_succ_of_le t2, ?_⟩
    simp only [AMap.apply, t3]
    congr 1
    funext k'
    simp only [AMap.set]
    split
    · next e => rw [e, t3]
    · rfl
  cases hp : w.ptr with
  | none => exact retnone (leafVal_null hp)
  | some a =>
    simp only
    cases hcond : w.cond with
    | true =>
      simp only [if_true]
      cases hlv : levels with
      | nil =>
        have hd0 : d = 0 := by rw [← ht.levels_len, hlv]; rfl
        subst hd0
        have hroot : cur = .root := by
          have := ht.loc
          cases cur with
          | root => rfl
          | slot b i =>
            obtain ⟨cs, p, -, h2, -⟩ := this
            simp [pre_zero] at h2
        subst hroot
        obtain ⟨-, rfl⟩ := hat
        rw [x.h.rootClean] at hcond; cases hcond
      | cons y rest =>
        obtain ⟨pl, child⟩ := y
        refine enterPrune_next ((ht.levels_ok _ (by rw [hlv]; simp)).evo ev hs) ⟨hreq, hcalls⟩ ?_
        intro i acc
        exact hl'
    | false =>
      simp only [Bool.false_eq_true, if_false]
      cases hdt : w.data with
      | true =>
        obtain ⟨items, h1, h2, h3⟩ := x.load hok hheld hp hdt
        simp only [if_true, h1]
        rw [filter_getLast cfg.key key items h3.nodup]
        cases hf : items.find? (fun l => decide (cfg.key l = key)) with
        | none =>
          have hlv := leafVal_data (cfg := cfg) (k := key) hp hdt h2
          rw [hf] at hlv
          exact retnone hlv
        | some deleted =>
          simp only [NextInv, PCInv, LinInv, PC.taken]
          exact ⟨⟨hreq, hcalls, d, a, items, rfl, ht.evo ev hs, word_eq_data hp hdt hcond, (hheld a hp).evo ev hs,
            h2, h3, rfl, hf⟩, hl'⟩
      | false =>
        simp only [Bool.false_eq_true, if_false]
        obtain ⟨h1, h2, ⟨cs, h3⟩, h4⟩ := x.descend ht.len hok hheld hp hdt
        have hml : ¬ MAX_LEVELS ≤ levels.length := by rw [ht.levels_len]; simp [MAX_LEVELS, LEVEL_BITS]; omega
        have hsh : ¬ HASH_BITS ≤ LEVEL_BITS * d := by simp only [LEVEL_BITS, HASH_BITS]; omega
        simp only [hml, hsh, if_false, NextInv, PCInv, LinInv, PC.taken]
        refine ⟨⟨hreq, hcalls, d + 1, rfl, ⟨by omega, by simp [ht.levels_len], h4.evo ev hs, ?_⟩⟩, hl'⟩
        intro y hy
        simp at hy
        rcases hy with rfl | hy
        · exact PairOK.evo ⟨a, cs, _, word_eq_inner hp hdt hcond, h3, h2, ht.loc⟩ ev hs
        · exact (ht.levels_ok y hy).evo ev hs

theorem tickRemCas_ok {c : Call K P} (x : Ctx cfg A m c.inv) {key : K} {shift : Nat} {cur : Loc}
    {levels : List (Loc × Word)} {node : Word} {new : List P} {deleted : P}
    (hpc : c.pc = .remCas key shift cur levels node new deleted) (hi : PCInv cfg A m c) (hl : LinInv W m.clock c)
    (hW : W m.clock = lpOf cfg m weak c) : TickOK cfg A W m c (tick cfg m weak c.pc) := by
  simp only [PCInv, hpc] at hi
  simp only [LinInv, hpc, PC.taken] at hl
  obtain ⟨hreq, hcalls, d, a, items, rfl, ht, rfl, hh, hm, hdok, hnew, hf⟩ := hi
  have hs := Nat.le_of_lt x.hs
  obtain ⟨w, hr, hat, hheld, hok⟩ := x.read ht.loc
  have hnn := x.h.fresh _ (Nat.le_refl _)
  by_cases hsucc : w = ⟨some a, false, true⟩ ∧ weak = false
  · obtain ⟨rfl, rfl⟩ := hsucc
    have hWs : W m.clock = some ⟨c.inv, .remove key, .opt (some deleted)⟩ := by
      rw [hW]; simp [lpOf, hpc, hreq, hr]
    have hkpre : pre (cfg.hash key) d <+: nibs (cfg.hash key) := pre_prefix _ _
    have hlf : (⟨some a, false, true⟩ : Word).isLeaf := Or.inr rfl
    have hsw := fun w' new ret => swing_swung hat hnn w' new ret
    have habsOld : ∀ k', pre (cfg.hash key) d <+: nibs (cfg.hash k') → m.abs cfg k' =
        items.find? (fun y => decide (cfg.key y = k')) := by
      intro k' ⟨ns, hns⟩
      rw [x.h.abs_at hat rfl hns.symm, hlf.look, leafVal_data rfl rfl hm]; rfl
    have fin : ∀ m1 : Mem P, tick cfg m false c.pc = (m1, enterClean deleted a levels) →
        MemInv cfg A m1.bump → m1.abs cfg = (m.abs cfg).set key none → Evo m m1.bump →
        TickOK cfg A W m c (tick cfg m false c.pc) := by
      intro m1 htick hinv habs hevo
      rw [htick]
      refine ⟨hinv, hevo, ?_, ?_⟩
      · rw [hWs]
        simp only
        refine ⟨trivial, hreq, ?_⟩
        simp only [AMap.apply, habs]
        rw [habsOld key hkpre, hf]
      · refine enterClean_next ⟨key, hreq⟩ hcalls ⟨hh.evo hevo hs, ⟨items, hevo.data _ _ hm,
          List.mem_of_find?_eq_some hf⟩, fun y hy => (ht.levels_ok y hy).evo hevo hs⟩ ?_
        refine ⟨m.clock, .remove key, hs, ?_, hreq, hWs⟩
        rw [hevo.clock]; omega
    cases hn : new with
    | nil =>
      have htick : tick cfg m false c.pc = (m.swing cur Word.null none (some a), enterClean deleted a levels) := by
        simp [hpc, tick, tickRemCas, hr, hn]; rfl
      obtain ⟨hinv, habs⟩ := x.h.clearLeaf hat x.hA rfl hlf (hsw _ _ _)
      refine fin _ htick hinv ?_ ((hsw _ _ _).evo x.h hat rfl (by intro b e; cases e; rfl))
      refine abs_set_of (m' := (m.swing cur Word.null none (some a)).bump) hkpre habs habsOld ?_
      intro k'
      have h1 := find_filter_ne cfg.key key k' items
      rw [← hnew, hn] at h1
      simpa using h1
    | cons y rest =>
      have htick : tick cfg m false c.pc = (m.swing cur ⟨some m.next, false, true⟩ (some (.data new)) (some a),
          enterClean deleted a levels) := by
        subst hn
        simp [hpc, tick, tickRemCas, hr]; rfl
      have hdok2 : DataOK cfg new (pre (cfg.hash key) d) := by
        refine ⟨by rw [hn]; simp, ?_, ?_, ?_⟩
        · intro z hz
          rw [hnew] at hz
          exact hdok.pre z ((List.mem_filter.mp hz).1)
        · rw [hnew]
          exact List.Nodup.sublist (List.Sublist.map _ List.filter_sublist) hdok.nodup
        · rcases hdok.short with h | h
          · left
            have h1 : new.length ≤ items.length := by rw [hnew]; exact List.length_filter_le _ _
            rw [hn] at h1 ⊢
            simp at h1 ⊢
            have : rest.length = 0 := by omega
            simpa using this
          · exact Or.inr h
      obtain ⟨hinv, habs⟩ := x.h.setLeaf hat x.hA rfl hlf hdok2 (hsw _ _ _)
      refine fin _ htick hinv ?_ ((hsw _ _ _).evo x.h hat rfl (by intro b e; cases e; rfl))
      refine abs_set_of (m' := (m.swing cur ⟨some m.next, false, true⟩ (some (.data new)) (some a)).bump) hkpre habs habsOld ?_
      intro k'
      rw [hnew]
      exact find_filter_ne cfg.key key k' items
  · have hWn : W m.clock = none := by
      rw [hW]
      have : ¬ (m.read cur = some ⟨some a, false, true⟩ ∧ weak = false) := by
        rw [hr]; intro e; exact hsucc ⟨by simpa using e.1, e.2⟩
      simp only [lpOf, hpc, hreq]; simp [this]
    have htick : tick cfg m weak c.pc = (m, .goto (.rem key (LEVEL_BITS * d) cur levels) false) := by
      simp [hpc, tick, tickRemCas, hr, hsucc]
    rw [htick]
    refine .quiet x hWn ?_
    simp only [NextInv, PCInv, LinInv, PC.taken]
    exact ⟨⟨hreq, hcalls, d, rfl, ht.evo (Evo.bump m) hs⟩, NotYet.succ hl hWn⟩

/-- A finished removal stays finished. -/
theorem taken_mono {n n' : Nat} {id : Nat} {req : Req K P} {p : P} (hn : n ≤ n')
    (h : ∃ τ o, id ≤ τ ∧ τ < n ∧ req = .op o ∧ W τ = some ⟨id, o, .opt (some p)⟩) :
    ∃ τ o, id ≤ τ ∧ τ < n' ∧ req = .op o ∧ W τ = some ⟨id, o, .opt (some p)⟩ := by
  obtain ⟨τ, o, h1, h2, h3⟩ := h
  exact ⟨τ, o, h1, by omega, h3⟩

theorem tickCount_ok {c : Call K P} (x : Ctx cfg A m c.inv) {deleted : P} {ref : Nat} {parent : Loc} {child : Word}
    {rest : List (Loc × Word)} {i : Fin 16} {cnt : Nat}
    (hpc : c.pc = .count deleted ref parent child rest i cnt) (hi : PCInv cfg A m c) (hl : LinInv W m.clock c)
    (hW : W m.clock = lpOf cfg m weak c) : TickOK cfg A W m c (tick cfg m weak c.pc) := by
  have hWn : W m.clock = none := by rw [hW]; simp only [lpOf, hpc]; split <;> rfl
  simp only [PCInv, hpc] at hi
  simp only [LinInv, hpc, PC.taken] at hl
  have hl' := taken_mono (n' := m.bump.clock) (Nat.le_succ _) hl
  obtain ⟨hreq, hcalls, hcl, hpair⟩ := hi
  have hs := Nat.le_of_lt x.hs
  have ev := Evo.bump m
  simp only [hpc, tick]
  refine .quiet x hWn ?_
  have hpair' := hpair.evo ev hs
  have hcl' := hcl.evo ev hs
  obtain ⟨a, cs, q, h1, h2, h3, h4⟩ := hpair
  simp only at h1
  subst h1
  obtain ⟨w, hr, -, -, -⟩ := x.read (loc := .slot a i) (q := q ++ [i]) ⟨cs, q, h2, rfl, h3⟩
  simp only [tickCount, hr]
  split
  · simp only [NextInv, PCInv, LinInv, PC.taken]
    exact ⟨⟨hreq, by simpa using hcalls, hcl', hpair'⟩, hl'⟩
  · generalize (if w.ptr.isSome = true then cnt + 1 else cnt) = cnt'
    obtain ⟨k, hk⟩ := hreq
    by_cases hgt : 1 < cnt'
    · simp only [hgt, if_true, NextInv, RetOK, hk]
      obtain ⟨l, e1, e2⟩ := hcl'.items
      refine ⟨by simpa using hcl'.held, _, rfl, ?_, ?_, hcalls⟩
      · obtain ⟨τ, o, t1, t2, t3, t4⟩ := hl'
        rw [hk] at t3; cases t3
        exact Or.inl ⟨τ, t1, t2, t4⟩
      · intro p hp
        simp [Ret.payloads] at hp
        subst hp
        exact ⟨ref, by simp, l, e1, e2⟩
    · simp only [hgt, if_false]
      exact enterPrune_next hpair' ⟨⟨⟨k, hk⟩, hcalls⟩, hcl'⟩ (fun i acc => hl')

/-! ### prune -/

theorem AccOK.push {m1 : Mem P} {c1 : Fin 16 → Word} {i : Fin 16} {acc acc' : PAcc} (h : AccOK m1 c1 i.val acc)
    (hc : (c1 i).cond = true) (hne : ∀ b l, (c1 i).ptr = some b → (c1 i).data = true → m1.mem b = some (.data l) → l ≠ [])
    (hp : acc.push m1 i (c1 i) = .ok acc') : AccOK m1 c1 (i.val + 1) acc' := by
  have hlt : ∀ j : Fin 16, j.val < i.val + 1 → j = i ∨ j.val < i.val := by
    intro j hj
    by_cases e : j = i
    · exact Or.inl e
    · right; have : j.val ≠ i.val := fun e2 => e (Fin.ext e2); omega
  have hcopy : ∀ j : Fin 16, j.val < i.val + 1 → upd acc.newChild i (c1 i).erase j = (c1 j).erase := by
    intro j hj
    rcases hlt j hj with rfl | h1
    · simp
    · rw [upd_other _ _ (by intro e; subst e; omega)]; exact h.copied j h1
  have hcond : ∀ j : Fin 16, j.val < i.val + 1 → (c1 j).cond = true := by
    intro j hj
    rcases hlt j hj with rfl | h1
    · exact hc
    · exact h.cond j h1
  simp only [PAcc.push, erase_ptr, erase_data] at hp
  cases hptr : (c1 i).ptr with
  | none =>
    simp only [hptr] at hp
    cases hp
    refine ⟨hcond, hcopy, ?_, ?_⟩
    · intro h0 j hj
      rcases hlt j hj with rfl | h1
      · exact hptr
      · exact h.zero h0 j h1
    · intro h1 h2
      obtain ⟨j, b, d, a1, a2, a3, a4, a5, a6⟩ := h.one h1 h2
      refine ⟨j, b, d, by omega, a2, a3, a4, a5, ?_⟩
      intro j' hj' hne'
      rcases hlt j' hj' with rfl | h3
      · exact hptr
      · exact a6 j' h3 hne'
  | some b =>
    simp only [hptr] at hp
    cases hd : (c1 i).data with
    | true =>
      simp only [hd, if_true] at hp
      split at hp
      · cases hp
      · next items hload =>
        have hm : m1.mem b = some (.data items) := by
          simp only [Mem.loadData, erase_data, erase_ptr, hd, hptr, Mem.deref] at hload
          simp only [Bool.true_eq_false, if_false] at hload
          split at hload
          · next l e =>
            cases hload
            split at e
            · cases e
            · exact e
          · cases hload
        have hnz := hne b items hptr hd hm
        have hlen : 0 < items.length := List.length_pos_iff.mpr hnz
        cases hp
        refine ⟨hcond, hcopy, ?_, ?_⟩
        · intro h0
          simp only at h0
          omega
        · intro h1 h2
          simp only at h2
          have h0 : acc.childCnt = 0 := by omega
          have hl1 : items.length = 1 := by omega
          obtain ⟨dd, rfl⟩ := List.length_eq_one_iff.mp hl1
          refine ⟨i, b, dd, by omega, rfl, hptr, hd, hm, ?_⟩
          intro j' hj' hne'
          rcases hlt j' hj' with rfl | h3
          · exact absurd rfl hne'
          · exact h.zero h0 j' h3
    | false =>
      simp only [hd, Bool.false_eq_true, if_false] at hp
      cases hp
      refine ⟨hcond, hcopy, ?_, ?_⟩
      · intro h0; simp only at h0; omega
      · intro h1; simp at h1

theorem taken_prune {parent : Loc} {child : Word} {i : Fin 16} {acc : PAcc} {k : Cont K P} :
    (PC.prune parent child i acc k).taken = k.taken := by cases k <;> rfl

theorem taken_pruneCas {parent : Loc} {child : Word} {acc : PAcc} {k : Cont K P} :
    (PC.pruneCas parent child acc k).taken = k.taken := by cases k <;> rfl

/-- The linearization state of a call whose continuation is `k`. -/
def LinCont (W : Nat → Option (LP K P)) (n : Nat) (id : Nat) (req : Req K P) (k : Cont K P) : Prop :=
  match k.taken with
  | none => NotYet W n id
  | some p => ∃ τ o, id ≤ τ ∧ τ < n ∧ req = .op o ∧ W τ = some ⟨id, o, .opt (some p)⟩

theorem LinCont.succ {id : Nat} {req : Req K P} {k : Cont K P} (h : LinCont W m.clock id req k) (hW : W m.clock = none) :
    LinCont W (m.clock + 1) id req k := by
  simp only [LinCont] at h ⊢
  cases hk : k.taken with
  | none => simp only [hk] at h ⊢; exact NotYet.succ h hW
  | some p => simp only [hk] at h ⊢; exact taken_mono (Nat.le_succ _) h

theorem tickPrune_ok {c : Call K P} (x : Ctx cfg A m c.inv) {parent : Loc} {child : Word} {i : Fin 16} {acc : PAcc}
    {k : Cont K P}
    (hpc : c.pc = .prune parent child i acc k) (hi : PCInv cfg A m c) (hl : LinInv W m.clock c)
    (hW : W m.clock = lpOf cfg m weak c) : TickOK cfg A W m c (tick cfg m weak c.pc) := by
  have hWn : W m.clock = none := by rw [hW]; simp only [lpOf, hpc]; split <;> rfl
  simp only [PCInv, hpc] at hi
  have hlc : LinCont W m.clock c.inv c.req k := by
    simp only [LinInv, hpc, taken_prune] at hl; exact hl
  have hlc' := hlc.succ hWn
  obtain ⟨hk, a, cs, q, rfl, hm, hh, hloc, hacc⟩ := hi
  have hs := Nat.le_of_lt x.hs
  obtain ⟨w, hr, hat, hheld, hok⟩ := x.read (loc := .slot a i) (q := q ++ [i]) ⟨cs, q, hm, rfl, hh⟩
  obtain ⟨cs', q', hm', -, rfl⟩ := hat
  rw [hm] at hm'; cases hm'
  have hevo := Evo.condemn i hm
  have hinv := (x.h.condemn i hm).bump
  have habs := abs_condemn (cfg := cfg) i hm
  have hwc := write_condemn i hm
  generalize hm1 : m.write (cs i).condemn (.slot a i) = m1 at *
  -- the cells afterwards
  have hm1a : m1.mem a = some (.inner (upd cs i (cs i).condemn) q) := by rw [hwc]; simp
  have hsame : ∀ j, (cs j).cond = true → upd cs i (cs i).condemn j = cs j := by
    intro j hj
    by_cases e : j = i
    · subst e; simp only [upd_same]; cases hw : cs j; simp_all [Word.condemn]
    · simp [upd_other _ _ e]
  -- accumulated so far, on the new memory
  have hacc1 : AccOK m1.bump (upd cs i (cs i).condemn) i.val acc := hacc.evo hevo hsame
  -- the pushed cell
  have hpush : ∃ acc', acc.push m1 i (cs i) = .ok acc' := by
    have hload : ∀ b, (cs i).ptr = some b → (cs i).data = true → ∃ l, m1.loadData (cs i).erase = .ok l := by
      intro b hptr hd
      obtain ⟨l, h1, -⟩ := hok.of_data hptr hd
      have h2 : m1.mem b = some (.data l) := hevo.data b l h1
      have h3 : m1.freed b = false := by rw [hwc]; exact x.hfree b (hheld b hptr)
      exact ⟨l, by simp [Mem.loadData, hd, hptr, Mem.deref, h2, h3]⟩
    simp only [PAcc.push]
    split
    · exact ⟨_, rfl⟩
    · next b hptr =>
      split
      · next hd =>
        obtain ⟨l, h⟩ := hload b hptr hd
        rw [h]
        exact ⟨_, rfl⟩
      · exact ⟨_, rfl⟩
  obtain ⟨acc', hpush⟩ := hpush
  have hpush' : acc.push m1.bump i (upd cs i (cs i).condemn i) = .ok acc' := by
    have e : acc.push m1.bump i (upd cs i (cs i).condemn i) = acc.push m1 i (cs i) := by
      simp only [upd_same, PAcc.push, condemn_erase]; rfl
    rw [e]; exact hpush
  have hacc2 : AccOK m1.bump (upd cs i (cs i).condemn) (i.val + 1) acc' := by
    refine hacc1.push (by simp) ?_ hpush'
    intro b l h1 h2 h3
    simp only [upd_same, condemn_ptr, condemn_data] at h1 h2
    obtain ⟨l', h4, h5⟩ := hok.of_data h1 h2
    have h6 : m1.mem b = some (.data l') := hevo.data b l' h4
    have h7 : m1.mem b = some (.data l) := h3
    rw [h6] at h7; cases h7
    exact h5.ne
  have hloc' := hloc.evo hevo hs
  have hh' := hh.evo hevo hs
  have hk' := hk.evo hevo hs
  have hclk : m1.bump.clock = m.clock + 1 := hevo.clock
  by_cases hlast : i.val + 1 < 16
  · have htick : tick cfg m weak c.pc = (m1, .goto (.prune parent ⟨some a, false, false⟩ ⟨i.val + 1, hlast⟩ acc' k) false) := by
      simp [hpc, tick, tickPrune, hr, hm1, hpush, hlast]
    rw [htick]
    refine ⟨hinv, hevo, by rw [hWn]; exact habs, ?_⟩
    simp only [NextInv, PCInv, LinInv, taken_prune]
    refine ⟨⟨by simpa using hk', a, _, q, rfl, hm1a, hh', hloc', hacc2⟩, ?_⟩
    rw [hclk]; exact hlc'
  · have htick : tick cfg m weak c.pc = (m1, .goto (.pruneCas parent ⟨some a, false, false⟩ acc' k) false) := by
      simp [hpc, tick, tickPrune, hr, hm1, hpush, hlast]
    rw [htick]
    refine ⟨hinv, hevo, by rw [hWn]; exact habs, ?_⟩
    simp only [NextInv, PCInv, LinInv, taken_pruneCas]
    have h16 : i.val + 1 = 16 := by omega
    rw [h16] at hacc2
    refine ⟨⟨by simpa using hk', a, _, q, rfl, hm1a, hh', hloc', hacc2⟩, ?_⟩
    rw [hclk]; exact hlc'

theorem tickPruneCas_ok {c : Call K P} (x : Ctx cfg A m c.inv) {parent : Loc} {child : Word} {acc : PAcc}
    {k : Cont K P}
    (hpc : c.pc = .pruneCas parent child acc k) (hi : PCInv cfg A m c) (hl : LinInv W m.clock c)
    (hW : W m.clock = lpOf cfg m weak c) : TickOK cfg A W m c (tick cfg m weak c.pc) := by
  have hWn : W m.clock = none := by rw [hW]; simp only [lpOf, hpc]; split <;> rfl
  simp only [PCInv, hpc] at hi
  have hlc : LinCont W m.clock c.inv c.req k := by
    simp only [LinInv, hpc, taken_pruneCas] at hl; exact hl
  have hlc' := hlc.succ hWn
  obtain ⟨hk, a, cs, q, rfl, hm, hh, hloc, hacc⟩ := hi
  have hs := Nat.le_of_lt x.hs
  obtain ⟨w, hr, hat, hheld, hok⟩ := x.read hloc
  have hnn := x.h.fresh _ (Nat.le_refl _)
  have hderef : m.deref a = some (.inner cs q) := by simp [Mem.deref, x.hfree a hh, hm]
  by_cases hsucc : w = ⟨some a, false, false⟩
  · subst hsucc
    have hsw := fun w' new ret => swing_swung hat hnn w' new ret
    have hdec := PAcc.decide_ok hacc q
    cases hd : acc.decide with
    | mk ins res =>
      rw [hd] at hdec
      cases ins with
      | word w' =>
        simp only at hdec
        have htick : tick cfg m weak c.pc = (m.swing parent w' none (some a), afterPrune res k) := by
          simp [hpc, tick, tickPruneCas, hr, hderef, hd]; rfl
        obtain ⟨hinv, habs⟩ := x.h.pruned hat x.hA rfl rfl rfl hm (fun i => hacc.cond i i.isLt) hdec (hsw _ _ _)
        have hevo := (hsw w' none (some a)).evo x.h hat rfl (by intro b e; cases e; rfl)
        rw [htick]
        refine ⟨hinv, hevo, by rw [hWn]; exact habs, afterPrune_next (hk.evo hevo hs) ?_⟩
        have hcl := hevo.clock
        simp only at hcl ⊢
        rw [hcl]; exact hlc'
      | copy cells =>
        simp only at hdec
        have htick : tick cfg m weak c.pc = (m.swing parent ⟨some m.next, false, false⟩ (some (.inner cells q)) (some a),
            afterPrune res k) := by
          simp [hpc, tick, tickPruneCas, hr, hderef, hd]; rfl
        obtain ⟨hinv, habs⟩ := x.h.pruned hat x.hA rfl rfl rfl hm (fun i => hacc.cond i i.isLt) hdec (hsw _ _ _)
        have hevo := (hsw ⟨some m.next, false, false⟩ (some (.inner cells q)) (some a)).evo x.h hat rfl (by intro b e; cases e; rfl)
        rw [htick]
        refine ⟨hinv, hevo, by rw [hWn]; exact habs, afterPrune_next (hk.evo hevo hs) ?_⟩
        have hcl := hevo.clock
        simp only at hcl ⊢
        rw [hcl]; exact hlc'
  · have htick : tick cfg m weak c.pc = (m, afterPrune .casFail k) := by
      simp [hpc, tick, tickPruneCas, hr, hderef, hsucc]
    rw [htick]
    exact .quiet x hWn (afterPrune_next (hk.evo (Evo.bump m) hs) hlc')
end Contrie
