import Verif.Proof.WeakTick
/-
Storing steps of the weak memory machine.
-/
set_option linter.unusedSectionVars false
namespace Contrie
variable {K P : Type} [DecidableEq K]
variable {cfg : Config K P} {O : Orders} {M : WMem P} {Kn : Nat → Prop} {m : Mem P} {weak : Bool} {w : Word} {c : Call K P}

theorem read_write {m : Mem P} {loc : Loc} {w : Word} (hr : m.read loc = some w) (w' : Word) :
    (m.write w' loc).read loc = some w' ∧ (m.write w' loc).next = m.next ∧
    ∀ a l, m.mem a = some (.data l) → (m.write w' loc).mem a = some (.data l) := by
  cases loc with
  | root => exact ⟨rfl, rfl, fun _ _ h => h⟩
  | slot a i =>
    simp only [Mem.read, Mem.deref] at hr
    cases hf : m.freed a with
    | true => simp [hf] at hr
    | false =>
      simp only [hf, Bool.false_eq_true, if_false] at hr
      cases hm : m.mem a with
      | none => simp [hm] at hr
      | some n =>
        cases n with
        | data l => simp [hm] at hr
        | inner cs p =>
          simp only [Mem.write, hm]
          refine ⟨?_, by simp, ?_⟩
          · simp [Mem.read, Mem.deref, hf]
          · intro b l hb
            have : b ≠ a := by intro e; rw [e, hm] at hb; cases hb
            simp [upd_other _ _ this, hb]

theorem alloc_write {m : Mem P} {loc : Loc} {w : Word} (hr : m.read loc = some w) (hl : ∀ a, loc.node = some a → a ≠ m.next)
    (n : Node P) (w' : Word) :
    ((m.alloc n).write w' loc).read loc = some w' ∧ newNode m ((m.alloc n).write w' loc) = some n := by
  have hr' : (m.alloc n).read loc = some w := by
    cases loc with
    | root => exact hr
    | slot a i => simpa [Mem.read, Mem.deref, Mem.alloc, upd_other _ _ (hl a rfl)] using hr
  obtain ⟨h1, h2, -⟩ := read_write hr' w'
  refine ⟨h1, ?_⟩
  have hne : ((m.alloc n).write w' loc).next ≠ m.next := by rw [h2]; simp [Mem.alloc]
  simp only [newNode, hne, if_false]
  cases loc with
  | root => simp [Mem.write, Mem.alloc]
  | slot a i =>
    have ha := hl a rfl
    simp only [Mem.write]
    split
    · simp [Mem.alloc, upd_other _ _ ha.symm]
    · simp [Mem.alloc]

theorem read_retire (m : Mem P) (a : Nat) (loc : Loc) : (m.retire a).read loc = m.read loc := by
  cases loc <;> rfl

theorem newNode_retire (m m' : Mem P) (a : Nat) : newNode m (m'.retire a) = newNode m m' := rfl

theorem WCtx.loc_ne (x : WCtx cfg M Kn m) {loc : Loc} {q : List (Fin 16)} (h : LocAt M.ideal 0 loc q) :
    ∀ a, loc.node = some a → a ≠ m.next := by
  intro a ha e
  obtain ⟨i, rfl⟩ := Loc.node_slot ha
  obtain ⟨cs, p, h1, -⟩ := h
  have h1' : M.nodes a = some (.inner cs p) := h1
  rw [e, x.next, x.hM.next_none] at h1'; cases h1'

/-- Storing a pointer to a new data node. -/
theorem good_data (x : WCtx cfg M Kn m) {loc : Loc} {q : List (Fin 16)} (hl : LocAt M.ideal 0 loc q) {l : List P}
    (hd : DataOK cfg l q) : WGoodStore cfg M Kn (some (.data l)) loc ⟨some m.next, false, true⟩ := by
  refine ⟨⟨q, hl, ?_⟩, ?_, fun _ => rfl⟩
  · simp only [WordOK, if_true]
    refine ⟨l, ?_, hd⟩
    simp [WMem.ideal, WMem.after, x.next]
  · intro b hb
    cases hb
    exact Or.inr ⟨rfl, x.next⟩

/-- Storing a pointer to a new inner node. -/
theorem good_inner (x : WCtx cfg M Kn m) {loc : Loc} {q : List (Fin 16)} (hl : LocAt M.ideal 0 loc q) (cs : Fin 16 → Word) :
    WGoodStore cfg M Kn (some (.inner cs q)) loc ⟨some m.next, false, false⟩ := by
  refine ⟨⟨q, hl, ?_⟩, ?_, fun _ => rfl⟩
  · simp only [WordOK, Bool.false_eq_true, if_false]
    refine ⟨cs, ?_⟩
    simp [WMem.ideal, WMem.after, x.next]
  · intro b hb
    cases hb
    exact Or.inr ⟨rfl, x.next⟩

theorem GoodNew.data (l : List P) : GoodNew cfg M Kn (some (.data l)) := fun _ _ h => by cases h

/-- A CAS that succeeds in storing a new node. -/
theorem WTickOK.cas {loc : Loc} {w0 w' : Word} {n : Node P} {nx : Next K P} {m1 : Mem P}
    (hacc : ∃ o, c.pc.access O = some (loc, o)) (hr : m1.read loc = some w')
    (hn : newNode m m1 = some n) (hg : GoodNew cfg M Kn (some n)) (hs : WGoodStore cfg M Kn (some n) loc w')
    (hx : WGoodNext cfg M Kn (some n) c nx) : WTickOK cfg O M Kn m weak w0 c (m1, nx) := by
  obtain ⟨o, ho⟩ := hacc
  refine ⟨by rw [hn]; exact hg, by rw [hn]; exact hx, ?_⟩
  intro loc' o' rel w'' h1 _ h3
  rw [ho] at h1; cases h1
  rw [hr] at h3; cases h3
  rw [hn]; exact hs

/-- A store without a new node. -/
theorem WTickOK.set {loc : Loc} {w0 w' : Word} {nx : Next K P} {m1 : Mem P}
    (hacc : ∃ o, c.pc.access O = some (loc, o)) (hr : m1.read loc = some w')
    (hn : m1.next = m.next) (hs : WGoodStore cfg M Kn none loc w')
    (hx : WGoodNext cfg M Kn none c nx) : WTickOK cfg O M Kn m weak w0 c (m1, nx) := by
  obtain ⟨o, ho⟩ := hacc
  have hn := newNode_next hn
  refine ⟨by rw [hn]; exact GoodNew.none, by rw [hn]; exact hx, ?_⟩
  intro loc' o' rel w'' h1 _ h3
  rw [ho] at h1; cases h1
  rw [hr] at h3; cases h3
  rw [hn]; exact hs

theorem dataOK_replace {items : List P} {q : List (Fin 16)} {p : P} (hdok : DataOK cfg items q)
    (hkpre : q <+: nibs (cfg.hash (cfg.key p)))
    (hdeep : q.length = 16 ∨ ∃ d0, items = [d0] ∧ cfg.key d0 = cfg.key p) :
    DataOK cfg (items.filter (fun l => decide (cfg.key l ≠ cfg.key p)) ++ [p]) q := by
  refine ⟨by simp, ?_, ?_, ?_⟩
  · intro y hy
    simp at hy
    rcases hy with hy | hy
    · exact hdok.pre y hy.1
    · subst hy; exact hkpre
  · rw [List.map_append, List.nodup_append]
    refine ⟨?_, by simp, ?_⟩
    · exact List.Nodup.sublist (List.Sublist.map _ List.filter_sublist) hdok.nodup
    · intro k1 h1 k2 h2
      simp at h1 h2
      obtain ⟨y, ⟨-, hy⟩, rfl⟩ := h1
      subst h2
      exact hy
  · rcases hdeep with h | ⟨d1, rfl, h1⟩
    · right; exact h
    · left; simp [h1]

theorem dataOK_filter {items : List P} {q : List (Fin 16)} {key : K} (hdok : DataOK cfg items q)
    (hne : items.filter (fun l => decide (cfg.key l ≠ key)) ≠ []) :
    DataOK cfg (items.filter (fun l => decide (cfg.key l ≠ key))) q := by
  refine ⟨hne, ?_, ?_, ?_⟩
  · intro z hz
    exact hdok.pre z ((List.mem_filter.mp hz).1)
  · exact List.Nodup.sublist (List.Sublist.map _ List.filter_sublist) hdok.nodup
  · rcases hdok.short with h | h
    · left
      have h1 : (items.filter (fun l => decide (cfg.key l ≠ key))).length ≤ items.length := List.length_filter_le _ _
      have h2 : 0 < (items.filter (fun l => decide (cfg.key l ≠ key))).length := List.length_pos_iff.mpr hne
      omega
    · exact Or.inr h

theorem wTickTravCas (x : WCtx cfg M Kn m) {st : TState K P} {hash : BitVec 64} {mode : Mode}
    {shift : Nat} {cur : Loc} {parent : Option (Loc × Word)} {node : Word} {new : Node P} {kind : TKind P}
    (hpc : c.pc = .travCas st hash mode shift cur parent node new kind) (hi : WPCInv cfg M.ideal c)
    (hh : ∀ a, c.pc.Holds a → Kn a) (hr : WRead cfg M m cur w) :
    WTickOK cfg O M Kn m weak w c (tick cfg m weak c.pc) := by
  simp only [WPCInv, hpc] at hi
  obtain ⟨d, rfl, ht, hcas⟩ := hi
  have hacc : ∃ o, c.pc.access O = some (cur, o) := ⟨O.cas, by rw [hpc]; rfl⟩
  have htick : tick cfg m weak c.pc = tickTravCas m weak st hash mode (LEVEL_BITS * d) cur parent node new kind := by
    rw [hpc]; rfl
  have hhc := hh
  rw [hpc] at hhc
  have hne := x.loc_ne ht.loc
  have hback : WGoodNext cfg M Kn none c (.goto (.trav st hash mode (LEVEL_BITS * d) cur parent) false) := by
    simp only [WGoodNext, WPCInv]
    exact ⟨⟨d, rfl, by simpa using ht⟩, fun a ha => hhc a (Or.inl ha)⟩
  by_cases hsucc : w = node ∧ weak = false
  · have hkpre : pre hash d <+: nibs (cfg.hash (st.key cfg)) := by rw [ht.hashEq]; exact pre_prefix _ _
    rw [htick]
    simp only [tickTravCas, hr.read, hsucc, and_self, if_true]
    cases hcas with
    | fresh p hst =>
      subst hst
      obtain ⟨a1, a2⟩ := alloc_write hr.read hne (.data [p]) ⟨some m.next, false, true⟩
      have hs := good_data x ht.loc (l := [p])
        ⟨by simp, by intro y hy; simp at hy; subst hy; exact hkpre, by simp, Or.inl rfl⟩
      simp only
      cases mode with
      | overwrite =>
        refine .cas hacc a1 a2 (GoodNew.data _) hs ?_
        simp [finishTrav, WGoodNext]
      | ifMissing =>
        refine .cas hacc a1 a2 (GoodNew.data _) hs ?_
        simp only [finishTrav, WGoodNext, List.mem_singleton]
        intro a ha
        exact Or.inr ⟨⟨_, rfl⟩, by rw [ha, x.next]⟩
    | split a d0 hheld hm hd16 hne' =>
      obtain ⟨a1, a2⟩ := alloc_write hr.read hne (Node.inner (upd (fun _ => Word.null)
        (bitsAt (cfg.hash (cfg.key d0)) (LEVEL_BITS * d)) ⟨some a, false, true⟩) (pre hash d)) ⟨some m.next, false, false⟩
      have hs := good_inner x ht.loc (upd (fun _ => Word.null)
        (bitsAt (cfg.hash (cfg.key d0)) (LEVEL_BITS * d)) ⟨some a, false, true⟩)
      simp only
      refine .cas hacc a1 a2 ?_ hs hback
      intro cs p hcs
      cases hcs
      rw [pre_length _ ht.len]
      refine ⟨hd16, fun i => ?_⟩
      by_cases hi : i = bitsAt (cfg.hash (cfg.key d0)) (LEVEL_BITS * d)
      · rw [hi, upd_same]
        have hw := hr.ok _ ht.loc
        rw [hsucc.1] at hw
        obtain ⟨l, h1, h2⟩ := hw.of_data rfl rfl
        rw [hm] at h1; cases h1
        refine ⟨?_, fun b hb => hhc b (Or.inr (Or.inl hb))⟩
        simp only [WordOK, if_true]
        refine ⟨[d0], hm, by simp, ?_, by simp, Or.inl rfl⟩
        intro y hy
        simp at hy; subst hy
        have h4 := h2.pre y (by simp)
        have h5 := pre_of_prefix h4
        rw [pre_length _ ht.len] at h5
        rw [h5, ← pre_succ _ hd16]
        exact pre_prefix _ _
      · rw [upd_other _ _ hi]
        exact ⟨WordOK.null _ _ _, fun b hb => by cases hb⟩
    | replace a p items hst hheld hm hdok hdeep hmode =>
      subst hst
      have hkp : TState.key cfg (TState.created (K := K) p) = cfg.key p := rfl
      rw [hkp] at hkpre hdeep hmode
      have hd2 : (pre hash d).length = 16 ∨ ∃ d0, items = [d0] ∧ cfg.key d0 = cfg.key p := by
        rw [pre_length _ ht.len]; exact hdeep
      have hdok2 := dataOK_replace hdok hkpre hd2
      simp only [hkp]
      obtain ⟨a1, a2⟩ := alloc_write hr.read hne (.data (items.filter (fun l => decide (cfg.key l ≠ cfg.key p)) ++ [p]))
        ⟨some m.next, false, true⟩
      have hs := good_data x ht.loc hdok2
      have hka : Kn a := hhc a (Or.inr (Or.inl rfl))
      have hma : M.nodes a = some (.data items) := hm
      simp only [Bool.true_eq_false, if_false]
      cases hf : items.find? (fun l => decide (cfg.key l = cfg.key p)) with
      | none =>
        cases mode with
        | overwrite =>
          refine .cas hacc (by rw [read_retire]; exact a1) (by rw [newNode_retire]; exact a2) (GoodNew.data _) hs ?_
          simp [finishTrav, WGoodNext]
        | ifMissing =>
          refine .cas hacc (by rw [read_retire]; exact a1) (by rw [newNode_retire]; exact a2) (GoodNew.data _) hs ?_
          simp only [finishTrav, WGoodNext, List.mem_singleton]
          intro b hb
          exact Or.inr ⟨⟨_, rfl⟩, by rw [hb, x.next]⟩
      | some e =>
        refine .cas hacc (by rw [read_retire]; exact a1) (by rw [newNode_retire]; exact a2) (GoodNew.data _) hs ?_
        cases mode <;>
        · simp only [finishTrav, WGoodNext, List.mem_singleton]
          intro b hb
          subst hb
          exact Or.inl ⟨hka, items, hma⟩
  · rw [htick]
    have : tickTravCas m weak st hash mode (LEVEL_BITS * d) cur parent node new kind =
        (m, .goto (.trav st hash mode (LEVEL_BITS * d) cur parent) false) := by
      simp only [tickTravCas, hr.read, hsucc, if_false]
    rw [this]
    exact .quiet (by rw [hpc]; simp only [PC.stores, hsucc, if_false]) hback

theorem wTickRemCas (x : WCtx cfg M Kn m) {key : K} {shift : Nat} {cur : Loc}
    {levels : List (Loc × Word)} {node : Word} {new : List P} {deleted : P}
    (hpc : c.pc = .remCas key shift cur levels node new deleted) (hi : WPCInv cfg M.ideal c)
    (hh : ∀ a, c.pc.Holds a → Kn a) (hr : WRead cfg M m cur w) :
    WTickOK cfg O M Kn m weak w c (tick cfg m weak c.pc) := by
  simp only [WPCInv, hpc] at hi
  obtain ⟨hreq, hcalls, d, a, items, rfl, ht, rfl, hheld, hm, hdok, hnew, hf⟩ := hi
  have hacc : ∃ o, c.pc.access O = some (cur, o) := ⟨O.cas, by rw [hpc]; rfl⟩
  have htick : tick cfg m weak c.pc = tickRemCas m weak key (LEVEL_BITS * d) cur levels ⟨some a, false, true⟩ new deleted := by
    rw [hpc]; rfl
  have hhc := hh
  rw [hpc] at hhc
  have hne := x.loc_ne ht.loc
  by_cases hsucc : w = ⟨some a, false, true⟩ ∧ weak = false
  · rw [htick]
    have hclean : ∀ nw, WGoodNext cfg M Kn nw c (enterClean deleted a levels) := by
      intro nw
      refine wEnterClean ⟨key, hreq⟩ hcalls ⟨hheld, ⟨items, hm, hf⟩, ht.levels_ok⟩ ?_
      rintro b (hb | hb)
      · subst hb; exact hhc _ (Or.inr rfl)
      · exact hhc b (Or.inl (Or.inr hb))
    simp only [tickRemCas, hr.read, hsucc, and_self, if_true, Bool.true_eq_false, if_false]
    cases hn : new with
    | nil =>
      obtain ⟨a1, a2, -⟩ := read_write hr.read Word.null
      refine .set hacc (by rw [read_retire]; exact a1) a2 ⟨⟨_, ht.loc, WordOK.null _ _ _⟩, ?_, fun _ => rfl⟩ (hclean _)
      intro b hb; cases hb
    | cons y rest =>
      obtain ⟨a1, a2⟩ := alloc_write hr.read hne (.data (y :: rest)) ⟨some m.next, false, true⟩
      have hd2 : DataOK cfg (y :: rest) (pre (cfg.hash key) d) := by
        rw [← hn, hnew]
        exact dataOK_filter hdok (by rw [← hnew, hn]; simp)
      exact .cas hacc (by rw [read_retire]; exact a1) (by rw [newNode_retire]; exact a2) (GoodNew.data _)
        (good_data x ht.loc hd2) (hclean _)
  · have : tickRemCas m weak key (LEVEL_BITS * d) cur levels ⟨some a, false, true⟩ new deleted =
        (m, .goto (.rem key (LEVEL_BITS * d) cur levels) false) := by
      simp only [tickRemCas, hr.read, hsucc, if_false]
    rw [htick, this]
    refine .quiet (by rw [hpc]; simp only [PC.stores, hsucc, if_false]) ?_
    simp only [WGoodNext, WPCInv]
    exact ⟨⟨hreq, by simpa using hcalls, d, rfl, ht⟩, fun b hb => hhc b (Or.inl hb)⟩

/-! ### prune -/

theorem WAccOK.push (x : WCtx cfg M Kn m) {m1 : Mem P} (hm1 : ∀ a l, m.mem a = some (.data l) → m1.mem a = some (.data l))
    (hfr : ∀ a, m1.freed a = false) {acc : PAcc} {q : List (Fin 16)} (h : WAccOK cfg M.ideal q acc)
    {gc : Word} {i : Fin 16} (hok : WordOK cfg M.ideal gc (q ++ [i])) (hk : ∀ b, gc.ptr = some b → Kn b) :
    ∃ acc', acc.push m1 i gc = .ok acc' ∧ WAccOK cfg M.ideal q acc' ∧
      (∀ j b, (acc'.newChild j).ptr = some b → (acc.newChild j).ptr = some b ∨ Kn b) ∧
      ∀ lf b, acc'.lastLeaf = some lf → lf.ptr = some b → acc.lastLeaf = some lf ∨ Kn b := by
  have hoke : WordOK cfg M.ideal gc.erase (q ++ [i]) := hok.congr rfl
  have cells : ∀ j, WordOK cfg M.ideal (upd acc.newChild i gc.erase j) (q ++ [j]) := by
    intro j
    by_cases hj : j = i
    · rw [hj, upd_same]; exact hoke
    · rw [upd_other _ _ hj]; exact h.cells j
  have keep : ∀ j b, (upd acc.newChild i gc.erase j).ptr = some b → (acc.newChild j).ptr = some b ∨ Kn b := by
    intro j b hb
    by_cases hj : j = i
    · rw [hj, upd_same] at hb; exact Or.inr (hk b hb)
    · rw [upd_other _ _ hj] at hb; exact Or.inl hb
  simp only [PAcc.push, erase_ptr, erase_data]
  cases hp : gc.ptr with
  | none => exact ⟨_, rfl, ⟨cells, h.leaf⟩, keep, fun lf b h _ => Or.inl h⟩
  | some a =>
    simp only
    rcases Bool.eq_false_or_eq_true gc.data with hd | hd
    · obtain ⟨l, h1, h2⟩ := hok.of_data hp hd
      have h1' : M.nodes a = some (.data l) := h1
      have hld : m1.loadData gc.erase = .ok l := by
        simp [Mem.loadData, hd, hp, Mem.deref, hfr a, hm1 a l (x.data a l (hk a hp) h1')]
      simp only [hd, if_true, hld]
      refine ⟨_, rfl, ⟨cells, ?_⟩, keep, ?_⟩
      · intro w' hw'
        cases hw'
        exact ⟨rfl, hd, a, l, i, hp, h1, h2, by simp⟩
      · intro lf b hlf hb
        cases hlf
        exact Or.inr (hk b hb)
    · simp only [hd, Bool.false_eq_true, if_false]
      refine ⟨_, rfl, ⟨cells, ?_⟩, keep, fun lf b h _ => Or.inl h⟩
      intro w' hw'
      obtain ⟨h1, h2, b, l, j, h3, h4, h5, h6⟩ := h.leaf w' hw'
      exact ⟨h1, h2, b, l, j, h3, h4, h5, by simp; omega⟩

theorem wTickPrune (x : WCtx cfg M Kn m) {parent : Loc} {child : Word} {i : Fin 16} {acc : PAcc} {k : Cont K P}
    (hpc : c.pc = .prune parent child i acc k) (hi : WPCInv cfg M.ideal c)
    (hh : ∀ a, c.pc.Holds a → Kn a) (hr : ∀ a, child.ptr = some a → WRead cfg M m (.slot a i) w)
    (hkn : ∀ b, w.ptr = some b → Kn b) : WTickOK cfg O M Kn m weak w c (tick cfg m weak c.pc) := by
  simp only [WPCInv, hpc] at hi
  obtain ⟨hk, a, cs, q, rfl, hm, hl, hacc⟩ := hi
  have hrd := hr a rfl
  have hac : ∃ o, c.pc.access O = some (.slot a i, o) := ⟨O.mark, by rw [hpc]; rfl⟩
  have htick : tick cfg m weak c.pc = tickPrune m parent ⟨some a, false, false⟩ i acc k := by rw [hpc]; rfl
  have hhc := hh
  rw [hpc] at hhc
  have hloc : LocAt M.ideal 0 (.slot a i) (q ++ [i]) :=
    ⟨cs, q, hm, rfl, held_ideal (by intro e; rw [show M.ideal.mem a = M.nodes a from rfl, e] at hm; cases hm)⟩
  have hok := hrd.ok _ hloc
  obtain ⟨a1, a2, a3⟩ := read_write hrd.read w.condemn
  have hfr : ∀ b, (m.write w.condemn (.slot a i)).freed b = false := by
    intro b
    simp only [Mem.write]
    split <;> exact x.freed b
  obtain ⟨acc', h1, h2, h3, h4⟩ := WAccOK.push x a3 hfr hacc hok hkn
  have hs : WGoodStore cfg M Kn none (.slot a i) w.condemn := by
    refine ⟨⟨_, hloc, ?_⟩, fun b hb => Or.inl (hkn b hb), fun e => by cases e⟩
    exact (hok.congr (w' := w.condemn) rfl).evo (after_evo none none x.hM.next_none)
  have hholds : ∀ b, (Cont.Holds b k ∨ (parent.node = some b ∨ some a = some b) ∨
      (∃ j, (acc'.newChild j).ptr = some b) ∨ ∃ lf, acc'.lastLeaf = some lf ∧ lf.ptr = some b) → Kn b := by
    rintro b (hb | hb | ⟨j, hb⟩ | ⟨lf, hb, hb2⟩)
    · exact hhc b (Or.inl hb)
    · exact hhc b (Or.inr (Or.inl hb))
    · rcases h3 j b hb with hb | hb
      · exact hhc b (Or.inr (Or.inr (Or.inl ⟨j, hb⟩)))
      · exact hb
    · rcases h4 lf b hb hb2 with hb | hb
      · exact hhc b (Or.inr (Or.inr (Or.inr ⟨lf, hb, hb2⟩)))
      · exact hb
  rw [htick]
  simp only [tickPrune, hrd.read, h1]
  split
  · refine .set hac a1 a2 hs ?_
    simp only [WGoodNext, WPCInv]
    exact ⟨⟨by simpa using hk, a, cs, q, rfl, hm, hl, h2⟩, hholds⟩
  · simp only [Bool.false_eq_true, or_self, if_false]
    refine .set hac a1 a2 hs ?_
    simp only [WGoodNext, WPCInv]
    exact ⟨⟨by simpa using hk, a, cs, q, rfl, hm, hl, h2⟩, hholds⟩

theorem PAcc.decide_cases (acc : PAcc) :
    (∃ leaf, acc.decide = (.word leaf, .singleton) ∧ acc.childCnt = 1 ∧ acc.lastLeaf = some leaf) ∨
    acc.decide = (.word Word.null, .null) ∨ acc.decide = (.copy acc.newChild, .copy) := by
  simp only [PAcc.decide]
  split
  · next leaf f1 f2 f3 => exact Or.inl ⟨leaf, rfl, f2, f3⟩
  · exact Or.inr (Or.inl rfl)
  · exact Or.inr (Or.inr rfl)

theorem wTickPruneCas (x : WCtx cfg M Kn m) {parent : Loc} {child : Word} {acc : PAcc} {k : Cont K P}
    (hpc : c.pc = .pruneCas parent child acc k) (hi : WPCInv cfg M.ideal c)
    (hh : ∀ a, c.pc.Holds a → Kn a) (hr : WRead cfg M m parent w) :
    WTickOK cfg O M Kn m weak w c (tick cfg m weak c.pc) := by
  simp only [WPCInv, hpc] at hi
  obtain ⟨hk, a, cs, q, rfl, hm, hl, hacc⟩ := hi
  have hac : ∃ o, c.pc.access O = some (parent, o) := ⟨O.cas, by rw [hpc]; rfl⟩
  have htick : tick cfg m weak c.pc = tickPruneCas m parent ⟨some a, false, false⟩ acc k := by rw [hpc]; rfl
  have hhc := hh
  rw [hpc] at hhc
  have hm' : M.nodes a = some (.inner cs q) := hm
  obtain ⟨cs', hsa⟩ := x.inner a cs q (hhc a (Or.inr (Or.inl (Or.inr rfl)))) hm'
  have hder : m.deref a = some (.inner cs' q) := by simp [Mem.deref, x.freed a, hsa]
  have hkh : ∀ b, Cont.Holds b k → Kn b := fun b hb => hhc b (Or.inl hb)
  have hq16 := (x.hM.nodeOK a cs q hm').1
  rw [htick]
  by_cases hsucc : w = ⟨some a, false, false⟩
  · simp only [tickPruneCas, hr.read, hder, hsucc, if_true]
    have hcopy : ∀ nx, WGoodNext cfg M Kn (some (.inner acc.newChild q)) c nx →
        WTickOK cfg O M Kn m weak ⟨some a, false, false⟩ c
          ((((m.alloc (.inner acc.newChild q)).write ⟨some m.next, false, false⟩ parent).retire a), nx) := by
      intro nx hnx
      obtain ⟨a1, a2⟩ := alloc_write hr.read (x.loc_ne hl) (.inner acc.newChild q) ⟨some m.next, false, false⟩
      refine .cas hac (by rw [read_retire]; exact a1) (by rw [newNode_retire]; exact a2) ?_ (good_inner x hl _) hnx
      intro cs2 p2 h2
      cases h2
      exact ⟨hq16, fun i => ⟨hacc.cells i, fun b hb => hhc b (Or.inr (Or.inr (Or.inl ⟨i, hb⟩)))⟩⟩
    rcases acc.decide_cases with ⟨leaf, e, f2, f3⟩ | e | e
    · rw [e]
      simp only
      obtain ⟨g1, g2, b, l, i, g3, g4, g5, g6⟩ := hacc.leaf leaf f3
      obtain ⟨a1, a2, -⟩ := read_write hr.read leaf
      refine .set hac (by rw [read_retire]; exact a1) a2 ⟨⟨q, hl, ?_⟩, ?_, fun _ => g1⟩ (wAfterPrune hk hkh)
      · refine WordOK.evo (m := M.ideal) ?_ (after_evo none none x.hM.next_none)
        simp only [WordOK, g3, g2, if_true]
        refine ⟨l, g4, g5.ne, fun y hy => ?_, g5.nodup, Or.inl ?_⟩
        · exact (List.prefix_append q [i]).trans (g5.pre y hy)
        · have := List.length_pos_iff.mpr g5.ne
          omega
      · intro b' hb'
        exact Or.inl (hhc b' (Or.inr (Or.inr (Or.inr ⟨leaf, f3, hb'⟩))))
    · rw [e]
      simp only
      obtain ⟨a1, a2, -⟩ := read_write hr.read Word.null
      refine .set hac (by rw [read_retire]; exact a1) a2 ⟨⟨q, hl, WordOK.null _ _ _⟩, ?_, fun _ => rfl⟩
        (wAfterPrune hk hkh)
      intro b hb; cases hb
    · rw [e]
      exact hcopy _ (wAfterPrune hk hkh)
  · have : tickPruneCas m parent ⟨some a, false, false⟩ acc k = (m, afterPrune .casFail k) := by
      simp only [tickPruneCas, hr.read, hder, hsucc, if_false]
    rw [this]
    exact .quiet (by rw [hpc]; simp only [PC.stores, hsucc, if_false]) (wAfterPrune hk hkh)

end Contrie
