import Verif.Proof.OneRem
/-
Executions in which removals do not overlap with each other: the steps of insertions and of the removal.
-/
set_option linter.unusedSectionVars false
namespace Contrie
variable {K P : Type} [DecidableEq K]
variable {cfg : Config K P} {A : Nat → AMap K P} {W : Nat → Option (LP K P)} {m m' : Mem P} {weak : Bool}
  {I : K → Prop} {R : Option (BitVec 64 × PC K P)}

/-! ### A pruned node is replaced -/

/-- Levels deeper than the one being pruned are not excused by the removal. -/
theorem OnNode.notEx {h : BitVec 64} {parent : Loc} {child : Word} {rest : List (Loc × Word)} {n : Nat} {acc : PAcc}
    (ho : OnNode m h parent child rest n acc) {a : Nat} {c : Fin 16 → Word} {p : List (Fin 16)}
    (hm : m.mem a = some (.inner c p)) (ha : child.ptr = some a) (i : Fin 16) {k : Nat} (hk : k ≤ rest.length + 1) :
    ¬ exRem h k (p ++ [i]) := by
  obtain ⟨h1, h2, a', c', rfl, h4, h5, h6, h7⟩ := ho
  cases ha
  rw [hm] at h4; cases h4
  rintro ⟨-, h8⟩
  rw [List.length_append, pre_length _ (by omega)] at h8
  simp at h8
  omega

/-- `prune` (of the removal or of a helper) replaces the node the removal is pruning. -/
theorem OInv.pruned {h : BitVec 64} {pc : PC K P} {parent : Loc} {child : Word} {rest : List (Loc × Word)} {n : Nat} {acc0 : PAcc}
    (ho : OInv cfg m I (some (h, pc))) (hi : MemInv cfg A m) (hA : A m.clock = m.abs cfg)
    (hon : OnNode m h parent child rest n acc0) (htodo : pc.todo m = rest.length + liveBit m child) (hpcon : pc.on = child.ptr)
    {a : Nat} {c : Fin 16 → Word} {p : List (Fin 16)} (hm : m.mem a = some (.inner c p)) (ha : child.ptr = some a)
    {loc : Loc} (hat : m.At loc p ⟨some a, false, false⟩)
    {acc : PAcc} (hacc : AccOK m c 16 acc) (hacc2 : Acc2 m c 16 acc) {w' : Word} {new : Option (Node P)}
    (hdec : acc.decide.1 = .word w' ∧ new = none ∨
      ∃ cells, acc.decide.1 = .copy cells ∧ w' = ⟨some m.next, false, false⟩ ∧ new = some (.inner cells p))
    (hsw : Swung m m' loc w' new (some a)) :
    m'.abs cfg = m.abs cfg ∧
    SInv cfg m' (fun p => (∃ k, I k ∧ exTrav cfg (m'.abs cfg) k p) ∨ exRem h rest.length p) noCd ∧ LevelsNow m' h rest ∧
    (new ≠ none → Just cfg (m'.abs cfg) I (pre h rest.length)) ∧ Evo m m' ∧ m'.retired a ≠ none := by
  have hnotEx : ∀ i h' pc', some (h, pc) = some (h', pc') → ¬ exRem h' (pc'.todo m) (p ++ [i]) := by
    intro i h' pc' e
    cases e
    refine hon.notEx hm ha i ?_
    rw [htodo]
    have : liveBit m child ≤ 1 := by unfold liveBit; split <;> (try split) <;> omega
    omega
  obtain ⟨h1, h2, a', c', rfl, h4, h5, h6, h7⟩ := hon
  cases ha
  rw [hm] at h4; cases h4
  have hplen : (pre h rest.length).length = rest.length := pre_length _ (by omega)
  have hret : m.retired a = none := hi.live _ _ a (hi.at_follow hat rfl) rfl
  have hbit : liveBit m ⟨some a, false, false⟩ = 1 := by simp [liveBit, hret]
  have hpok := PAcc.decide_ok hacc (pre h rest.length)
  have hpok' : PruneOK m (pre h rest.length) c w' new := by
    rcases hdec with ⟨e1, rfl⟩ | ⟨cells, e1, rfl, rfl⟩
    · rw [e1] at hpok; exact hpok
    · rw [e1] at hpok; exact hpok
  obtain ⟨hinv, habs⟩ := hi.pruned hat hA rfl rfl rfl hm (fun i => hacc.cond i i.isLt) hpok' hsw
  have hw'c : w'.cond = false := by cases hpok' <;> rfl
  have hjust : new ≠ none → Just cfg (m.abs cfg) I (pre h rest.length) := by
    intro hne
    rcases hdec with ⟨e1, e⟩ | ⟨cells, e1, -, -⟩
    · exact absurd e hne
    · exact ho.of_copy hi hm hret hnotEx hacc2 (r := acc.decide.2) (by rw [← e1])
  have hcells : ∀ cells p', new = some (.inner cells p') → p' = pre h rest.length ∧ ∀ i, (cells i).cond = false := by
    intro cells p' e
    cases hpok' with
    | null => cases e
    | single => cases e
    | copy => cases e; exact ⟨rfl, fun i => rfl⟩
  refine ⟨habs, ?_, h1.swung hsw hat (by omega) (by omega), fun hne => by rw [habs]; exact hjust hne,
    hsw.evo hi hat rfl (by intro b e; cases e; rfl), by rw [hsw.retired, if_pos rfl]; simp⟩
  refine ho.s.swung hsw hw'c ?_ ?_ ?_
  · intro b cb pb e1 e2 e3 e4
    rw [habs]
    rcases e4 with e4 | e4 | ⟨h', pc', e4, e5, e6⟩
    · exact Or.inl e4
    · exact Or.inr (Or.inl e4)
    · cases e4
      refine Or.inr (Or.inr ⟨e5, ?_⟩)
      rw [htodo, hbit] at e6
      apply Classical.byContradiction
      intro hge
      have hp : pb = pre h rest.length := by
        rw [pre_of_prefix e5]; congr 1; omega
      subst hp
      have i1 := hi.inner_at e1 e2
      rw [hi.inner_at hm hret] at i1
      cases i1
      exact e3 rfl
  · intro cells p' e
    obtain ⟨rfl, e2⟩ := hcells cells p' e
    refine ⟨?_, e2⟩
    have := hjust (by rw [e]; simp)
    rw [habs]
    rcases this with e3 | e3
    · exact Or.inl e3
    · exact Or.inr (Or.inl e3)
  · rintro b i hb ⟨h', pc', e1, e2⟩
    cases e1
    rw [hpcon] at e2
    exact hb e2

/-- The removal goes up one level. -/
theorem enterClean_one {h : BitVec 64} {deleted : P} {ref : Nat} {lv : List (Loc × Word)} (hl : LevelsNow m h lv)
    (hs : SInv cfg m (fun p => (∃ k, I k ∧ exTrav cfg (m.abs cfg) k p) ∨ exRem h lv.length p) noCd) :
    RemNext cfg m I h (enterClean deleted ref lv : Next K P) := by
  cases lv with
  | nil =>
    refine ⟨?_, by intro h pc e; cases e⟩
    refine hs.change ?_ (fun _ _ _ h => h.elim)
    rintro a c p - - (e | e | ⟨-, e⟩)
    · exact Or.inl e
    · exact Or.inr (Or.inl e)
    · simp at e
  | cons x rest =>
    obtain ⟨loc, w⟩ := x
    have hl' := hl
    obtain ⟨⟨a, c, rfl, h2, h3⟩, -⟩ := hl
    simp only [enterClean, RemNext]
    refine ⟨?_, ?_⟩
    · refine hs.change ?_ (fun _ _ _ h => h.elim)
      rintro a c p - - (e | e | e)
      · exact Or.inl e
      · exact Or.inr (Or.inl e)
      · exact Or.inr (Or.inr ⟨h, _, rfl, e⟩)
    · rintro h' pc' e
      cases e
      exact ⟨hl', CountOK.init rfl h2⟩

/-- The removal is done: the node it looked at last is necessary. -/
theorem rem_done_one {h : BitVec 64} {n : Nat} {cd : Nat → Fin 16 → Prop}
    (hs : SInv cfg m (fun p => (∃ k, I k ∧ exTrav cfg (m.abs cfg) k p) ∨ exRem h (n + 1) p) cd)
    (hcd : ∀ a i, m.retired a = none → ¬ cd a i)
    (ht : Just cfg (m.abs cfg) I (pre h n)) (hn : n ≤ 16) : OInv cfg m I none := by
  refine ⟨?_, by intro h pc e; cases e⟩
  refine hs.change ?_ (fun a i h1 h2 => absurd h2 (hcd a i h1))
  rintro a c p - - (e | e | ⟨e1, e2⟩)
  · exact Or.inl e
  · exact Or.inr (Or.inl e)
  · refine (ht.up ?_).exW
    rw [pre_of_prefix e1]
    exact List.take_prefix_take_left (by omega)

/-! ### The removal -/

theorem PC.on_rem {c : PC K P} (h : c.on = none) (h' : BitVec 64) {a : Nat} :
    ¬ ∃ h0 pc, (some (h', c) : Option (BitVec 64 × PC K P)) = some (h0, pc) ∧ pc.on = some a := by
  rintro ⟨h0, pc, e1, e2⟩
  cases e1
  rw [h] at e2; cases e2

theorem oneRem {c : Call K P} (x : Ctx cfg A m c.inv) {key : K} {shift : Nat} {cur : Loc} {levels : List (Loc × Word)}
    (hpc : c.pc = .rem key shift cur levels) (hi : PCInv cfg A m c) (ho : OInv cfg m I (some (cfg.hash key, c.pc))) :
    RemNext cfg (tick cfg m weak c.pc).1.bump I (cfg.hash key) (tick cfg m weak c.pc).2 := by
  simp only [PCInv, hpc] at hi
  obtain ⟨hreq, hcalls, d, rfl, ht⟩ := hi
  have hr' := ho.r _ _ rfl
  rw [hpc] at hr' ho
  obtain ⟨hl, hlv⟩ := hr'
  simp only [hpc, tick]
  obtain ⟨w, hr, hat, hheld, hok⟩ := x.read ht.loc
  have hcond := ho.cell_clean x.h hat hl (fun a i _ => PC.on_rem rfl _)
  have hdone : OInv cfg m.bump I none := by
    refine OInv.bump ⟨ho.s.change ?_ ?_, by intro h pc e; cases e⟩
    · rintro a c p - - (e | e | ⟨h, pc, e1, -, e2⟩)
      · exact Or.inl e
      · exact Or.inr (Or.inl e)
      · cases e1; simp [PC.todo] at e2
    · intro a i _ e; exact absurd e (PC.on_rem rfl _)
  have hmove : ∀ pc : PC K P, pc.todo m = 0 → pc.on = none → RemPC m (cfg.hash key) pc → OInv cfg m.bump I (some (cfg.hash key, pc)) := by
    intro pc h1 h2 h3
    refine OInv.bump ⟨ho.s.change ?_ ?_, by intro h pc' e; cases e; exact h3⟩
    · rintro a c p - - (e | e | ⟨h, pc, e1, -, e2⟩)
      · exact Or.inl e
      · exact Or.inr (Or.inl e)
      · cases e1; simp [PC.todo] at e2
    · intro a i _ e; exact absurd e (PC.on_rem rfl _)
  simp only [tickRem, hr]
  cases hp : w.ptr with
  | none => exact hdone
  | some a =>
    simp only [hcond, Bool.false_eq_true, if_false]
    cases hdt : w.data with
    | true =>
      simp only [if_true]
      split
      · trivial
      · split
        · exact hdone
        · simp only [RemNext]; exact hmove _ rfl rfl ⟨hl, hlv⟩
    | false =>
      simp only [Bool.false_eq_true, if_false]
      split
      · trivial
      · split
        · trivial
        · simp only [RemNext]
          obtain ⟨h1, h2, ⟨cs, h3⟩, h4⟩ := x.descend ht.len hok hheld hp hdt
          refine hmove _ rfl rfl ⟨⟨x.h.live _ _ a (x.h.live_follow hat hl.liveLoc) hp, cs, _, h3⟩, ?_⟩
          refine ⟨⟨a, cs, word_eq_inner hp hdt hcond, ?_, ?_⟩, hlv⟩
          · rw [ht.levels_len]; exact h3
          · rw [ht.levels_len]; exact hat

theorem oneRemCas {c : Call K P} (x : Ctx cfg A m c.inv) {key : K} {shift : Nat} {cur : Loc}
    {levels : List (Loc × Word)} {node : Word} {new : List P} {deleted : P}
    (hpc : c.pc = .remCas key shift cur levels node new deleted) (hi : PCInv cfg A m c)
    (hok' : TickOK cfg A W m c (tick cfg m weak c.pc)) (hW : W m.clock = lpOf cfg m weak c)
    (ho : OInv cfg m I (some (cfg.hash key, c.pc))) :
    RemNext cfg (tick cfg m weak c.pc).1.bump I (cfg.hash key) (tick cfg m weak c.pc).2 := by
  simp only [PCInv, hpc] at hi
  obtain ⟨hreq, hcalls, d, a, items, rfl, ht, rfl, hh, hm, hdok, hnew, hf⟩ := hi
  have hr' := ho.r _ _ rfl
  rw [hpc] at hr' ho
  obtain ⟨hl, hlv⟩ := hr'
  obtain ⟨w, hr, hat, hheld, hok⟩ := x.read ht.loc
  have hnn := x.h.fresh _ (Nat.le_refl _)
  by_cases hsucc : w = ⟨some a, false, true⟩ ∧ weak = false
  · obtain ⟨rfl, rfl⟩ := hsucc
    have hWs : W m.clock = some ⟨c.inv, .remove key, .opt (some deleted)⟩ := by
      rw [hW]; simp [lpOf, hpc, hreq, hr]
    have hlp := hok'.lp
    rw [hWs] at hlp
    simp only [AMap.apply, Prod.mk.injEq] at hlp
    have habs := hlp.2.2.1
    have hlf : (⟨some a, false, true⟩ : Word).isLeaf := Or.inr rfl
    have fin : ∀ w' new, w'.cond = false → (∀ c p, new ≠ some (.inner c p)) →
        tick cfg m false c.pc = (m.swing cur w' new (some a), enterClean deleted a levels) →
        RemNext cfg (tick cfg m false c.pc).1.bump I (cfg.hash key) (tick cfg m false c.pc).2 := by
      intro w' new hw' hn htick
      have hsw := swing_swung hat hnn w' new (some a)
      rw [htick] at habs ⊢
      simp only at habs ⊢
      have habs' : (m.swing cur w' new (some a)).bump.abs cfg = (m.abs cfg).set key none := by
        rw [habs]; exact abs_mem rfl rfl
      refine enterClean_one (h := cfg.hash key) (hlv.swung hsw hat ?_ ?_) ?_
      · rw [ht.levels_len]; exact ht.len
      · rw [ht.levels_len, pre_length _ ht.len]; exact Nat.le_refl _
      · refine ho.s.swung hsw hw' ?_ (fun c p e => absurd e (hn c p)) ?_
        · intro b cb p h1 h2 h3 h4
          have h4 : Just cfg (m.abs cfg) I p := by
            rcases exW.just h4 with h4 | ⟨h, pc, e1, -, e2⟩
            · exact h4
            · cases e1; simp [PC.todo] at e2
          by_cases hp : p <+: nibs (cfg.hash key)
          · right
            refine Or.inr ⟨hp, ?_⟩
            apply Classical.byContradiction
            intro hge
            rw [ht.levels_len] at hge
            have h5 : pre (cfg.hash key) d <+: p := by
              rw [pre_of_prefix hp]; exact List.take_prefix_take_left (by omega)
            obtain ⟨t, rfl⟩ := h5
            have h6 := x.h.inner_at h1 h2
            rw [follow_append' (x.h.at_follow hat rfl)] at h6
            have := (hlf.follow h6).2
            cases this
          · have hne : ∀ k, Under cfg (m.abs cfg) p k → Under cfg ((m.abs cfg).set key none) p k := by
              intro k hk
              have : k ≠ key := by intro e; subst e; exact hp hk.1
              exact ⟨hk.1, by simp only [AMap.set, this, if_false]; exact hk.2⟩
            rw [habs']
            rcases h4 with ⟨k1, k2, g1, g2, g3⟩ | ⟨k, g1, g2, k', g3, g4⟩
            · exact Or.inl ⟨k1, k2, g1, hne _ g2, hne _ g3⟩
            · exact Or.inr (Or.inl ⟨k, g1, g2, k', g3, hne _ g4⟩)
        · intro b i _ e; exact absurd e (PC.on_rem rfl _)
    cases hn : new with
    | nil =>
      refine fin Word.null none rfl (by intro c p e; cases e) ?_
      simp [hpc, tick, tickRemCas, hr, hn]; rfl
    | cons y rest =>
      refine fin ⟨some m.next, false, true⟩ (some (.data new)) rfl (by intro c p e; cases e) ?_
      subst hn
      simp [hpc, tick, tickRemCas, hr]; rfl
  · have htick : tick cfg m weak c.pc = (m, .goto (.rem key (LEVEL_BITS * d) cur levels) false) := by
      simp [hpc, tick, tickRemCas, hr, hsucc]
    rw [htick]
    simp only [RemNext]
    refine OInv.bump ⟨ho.s.change ?_ ?_, by intro h pc' e; cases e; exact ⟨hl, hlv⟩⟩
    · rintro a c p - - (e | e | ⟨h, pc, e1, -, e2⟩)
      · exact Or.inl e
      · exact Or.inr (Or.inl e)
      · cases e1; simp [PC.todo] at e2
    · intro a i _ e; exact absurd e (PC.on_rem rfl _)

theorem oneCount {c : Call K P} (x : Ctx cfg A m c.inv) {deleted : P} {ref : Nat} {parent : Loc} {child : Word}
    {rest : List (Loc × Word)} {i : Fin 16} {cnt : Nat} {h : BitVec 64}
    (hpc : c.pc = .count deleted ref parent child rest i cnt) (hi : PCInv cfg A m c) (ho : OInv cfg m I (some (h, c.pc))) :
    RemNext cfg (tick cfg m weak c.pc).1.bump I h (tick cfg m weak c.pc).2 := by
  simp only [PCInv, hpc] at hi
  obtain ⟨hreq, hcalls, hcl, hpair⟩ := hi
  have hr' := ho.r _ _ rfl
  rw [hpc] at hr' ho
  obtain ⟨hlv, hcnt⟩ := hr'
  obtain ⟨a, cs, rfl, hm, hat, hret, hlt, hplen⟩ := hlv.head_live x.h
  obtain ⟨a2, cs2, q2, h1, h2, h3, h4⟩ := hpair
  simp only at h1
  cases h1
  obtain ⟨w, hr, hatw, -, -⟩ := x.read (loc := .slot a i) (q := q2 ++ [i]) ⟨cs2, q2, h2, rfl, h3⟩
  obtain ⟨c3, p3, hm3, -, rfl⟩ := hatw
  rw [hm] at hm3; cases hm3
  obtain ⟨a4, c4, p4, g1, g2, g3, g4⟩ := hcnt
  cases g1
  rw [hm] at g2; cases g2
  simp only [hpc, tick, tickCount, hr]
  generalize hcnt' : (if (cs i).ptr.isSome = true then cnt + 1 else cnt) = cnt'
  have hok1 : 1 ≤ cnt' → ∃ j : Fin 16, j.val < i.val + 1 ∧ (cs j).ptr ≠ none := by
    intro hc
    split at hcnt'
    · next he => exact ⟨i, by omega, by intro e; rw [e] at he; cases he⟩
    · subst hcnt'; obtain ⟨j, e1, e2⟩ := g3 hc; exact ⟨j, by omega, e2⟩
  have hok2 : 2 ≤ cnt' → ∃ j j' : Fin 16, j ≠ j' ∧ (cs j).ptr ≠ none ∧ (cs j').ptr ≠ none := by
    intro hc
    split at hcnt'
    · next he =>
      obtain ⟨j, e1, e2⟩ := g3 (by omega)
      exact ⟨j, i, by intro e; subst e; omega, e2, by intro e; rw [e] at he; cases he⟩
    · subst hcnt'; exact g4 hc
  have hnotEx : ∀ j h' pc', some (h, (.count deleted ref parent ⟨some a, false, false⟩ rest i cnt : PC K P)) = some (h', pc') →
      ¬ exRem h' (pc'.todo m) (pre h rest.length ++ [j]) := by
    intro j h' pc' e
    cases e
    rintro ⟨-, e⟩
    simp [PC.todo, hplen] at e
  split
  · simp only [RemNext]
    refine OInv.bump ⟨ho.s.change ?_ ?_, by
      intro h pc' e; cases e
      exact ⟨hlv, a, cs, _, rfl, hm, hok1, hok2⟩⟩
    · rintro a c p - - (e | e | ⟨h, pc, e1, e2⟩)
      · exact Or.inl e
      · exact Or.inr (Or.inl e)
      · cases e1; exact Or.inr (Or.inr ⟨_, _, rfl, e2⟩)
    · intro a i _ e; exact absurd e (PC.on_rem rfl _)
  · split
    · simp only [RemNext]
      obtain ⟨j, j', e1, e2, e3⟩ := hok2 (by omega)
      have htwo := ho.cells_two x.h hm hret e1 e2 e3 hnotEx
      refine OInv.bump (rem_done_one (h := h) (n := rest.length) (cd := noCd) (ho.s.change ?_ ?_) (fun _ _ _ h => h) (Or.inl htwo) (by omega))
      · rintro a c p - - (e | e | ⟨h, pc, e1, e2⟩)
        · exact Or.inl e
        · exact Or.inr (Or.inl e)
        · cases e1; exact Or.inr (Or.inr e2)
      · intro a i _ e; exact absurd e (PC.on_rem rfl _)
    · simp only [enterPrune, Bool.false_eq_true, if_false, RemNext]
      refine OInv.bump ⟨ho.s.change ?_ ?_, by
        intro h pc' e; cases e
        exact ⟨hlv.2, hlt, a, cs, rfl, hm, fun _ => hat, Acc2.init m cs, by intro j hj; simp at hj⟩⟩
      · rintro a' c p - - (e | e | ⟨h, pc, e1, e2⟩)
        · exact Or.inl e
        · exact Or.inr (Or.inl e)
        · cases e1
          refine Or.inr (Or.inr ⟨_, _, rfl, ?_⟩)
          have : (PC.prune parent ⟨some a, false, false⟩ 0 PAcc.init (.clean deleted ref rest) : PC K P).todo m = rest.length + 1 := by
            simp [PC.todo, liveBit, hret]
          rw [this]; exact e2
      · intro a i _ e; exact absurd e (PC.on_rem rfl _)

/-- The accumulator after one more cell. -/
theorem Acc2.next {a : Nat} {cs : Fin 16 → Word} {p : List (Fin 16)} {i : Fin 16} {acc acc' : PAcc} (h : Acc2 m cs i.val acc)
    (hi : MemInv cfg A m) (hm : m.mem a = some (.inner cs p))
    (hpush : acc.push (m.write (cs i).condemn (.slot a i)) i (cs i) = .ok acc') :
    Acc2 (m.write (cs i).condemn (.slot a i)).bump (upd cs i (cs i).condemn) (i.val + 1) acc' := by
  have hok := (hi.nodeOK a cs p hm).2 i
  have hevo := Evo.condemn i hm
  generalize m.write (cs i).condemn (.slot a i) = m1 at *
  have hacc1 : Acc2 m1.bump (upd cs i (cs i).condemn) i.val acc := by
    refine h.congr ?_ hevo.data
    intro j
    by_cases e : j = i
    · subst e; simp
    · simp [upd_other _ _ e]
  have hpush' : acc.push m1.bump i (upd cs i (cs i).condemn i) = .ok acc' := by
    have e : acc.push m1.bump i (upd cs i (cs i).condemn i) = acc.push m1 i (cs i) := by
      simp only [upd_same, PAcc.push, condemn_erase]; rfl
    rw [e]; exact hpush
  refine hacc1.push ?_ hpush'
  intro b l e1 e2 e3
  simp only [upd_same, condemn_ptr, condemn_data] at e1 e2
  obtain ⟨l', e4, e5⟩ := hok.of_data e1 e2
  have e6 : m1.bump.mem b = some (.data l') := hevo.data b l' e4
  rw [e6] at e3; cases e3
  exact e5.ne

theorem cond_next {cs : Fin 16 → Word} {i : Fin 16} (h : ∀ j : Fin 16, j.val < i.val → (cs j).cond = true) :
    ∀ j : Fin 16, j.val < i.val + 1 → (upd cs i (cs i).condemn j).cond = true := by
  intro j hj
  by_cases e : j = i
  · subst e; rw [upd_same]; rfl
  · rw [upd_other _ _ e]
    refine h j ?_
    have : j.val ≠ i.val := fun e2 => e (Fin.ext e2)
    omega

theorem onePrune {c : Call K P} (x : Ctx cfg A m c.inv) {parent : Loc} {child : Word} {i : Fin 16} {acc : PAcc}
    {deleted : P} {ref : Nat} {rest : List (Loc × Word)} {h : BitVec 64}
    (hpc : c.pc = .prune parent child i acc (.clean deleted ref rest)) (hi : PCInv cfg A m c) (ho : OInv cfg m I (some (h, c.pc))) :
    RemNext cfg (tick cfg m weak c.pc).1.bump I h (tick cfg m weak c.pc).2 := by
  simp only [PCInv, hpc] at hi
  have hr' := ho.r _ _ rfl
  rw [hpc] at hr' ho
  obtain ⟨hk, a2, cs2, q2, h1, h2, h3, h4, h5⟩ := hi
  have hon : OnNode m h parent child rest i.val acc := hr'
  obtain ⟨hlv, hlt, a, cs, rfl, hm, hat, hacc, hcond⟩ := hr'
  have ea : a = a2 := by cases h1; rfl
  subst ea
  have ec : cs = cs2 := by rw [hm] at h2; cases h2; rfl
  have eq2 : pre h rest.length = q2 := by rw [hm] at h2; cases h2; rfl
  subst ec
  subst eq2
  obtain ⟨w, hr, hatw, hheld, hok⟩ := x.read (loc := .slot a i) (q := pre h rest.length ++ [i]) ⟨cs, _, hm, rfl, h3⟩
  obtain ⟨c3, p3, hm3, -, rfl⟩ := hatw
  rw [hm] at hm3; cases hm3
  have hs' := ho.s.condemnW i hm ⟨h, _, rfl, rfl⟩
  have hon' := hon.condemn i hm rfl
  have hret : (m.write (cs i).condemn (.slot a i)).bump.retired = m.retired := by rw [write_condemn i hm]; rfl
  have habs' : (m.write (cs i).condemn (.slot a i)).bump.abs cfg = m.abs cfg := by
    rw [← abs_condemn (cfg := cfg) i hm]; exact abs_mem rfl rfl
  have hnext := fun acc' => hacc.next (acc' := acc') x.h hm
  have hm1a : (m.write (cs i).condemn (.slot a i)).bump.mem a = some (.inner (upd cs i (cs i).condemn) (pre h rest.length)) := by
    rw [write_condemn i hm]; simp [Mem.bump]
  simp only [hpc, tick, tickPrune, hr]
  generalize hm1 : m.write (cs i).condemn (.slot a i) = m1 at *
  have hfin : ∀ (n : Nat) (pc : PC K P) acc', acc.push m1 i (cs i) = .ok acc' → n = i.val + 1 → pc.on = some a →
      pc.todo m = rest.length + liveBit m ⟨some a, false, false⟩ →
      (OnNode m1.bump h parent ⟨some a, false, false⟩ rest n acc' → RemPC m1.bump h pc) → OInv cfg m1.bump I (some (h, pc)) := by
    intro n pc acc' hp hn e1 e2 e3
    refine ⟨hs'.change ?_ ?_, ?_⟩
    · rintro b c p - - (e | ⟨k, f1, f2⟩ | ⟨h', pc', f1, f2⟩)
      · exact Or.inl e
      · exact Or.inr (Or.inl ⟨k, f1, by rw [habs']; exact f2⟩)
      · cases f1
        refine Or.inr (Or.inr ⟨h, pc, rfl, ?_⟩)
        rw [todo_same hret, e2]
        exact f2
    · rintro b i - ⟨h', pc', f1, f2⟩
      cases f1
      exact ⟨h, pc, rfl, by rw [e1]; exact f2⟩
    · rintro h' pc' e; cases e
      apply e3
      obtain ⟨g1, g2, a', c', g3, g4, g5, g6, g7⟩ := hon'
      cases g3
      subst hn
      exact ⟨g1, g2, a, _, rfl, hm1a, g5, hnext acc' hp, cond_next hcond⟩
  split
  · trivial
  · next acc' hpush =>
    split
    · exact hfin _ _ acc' hpush rfl rfl rfl (fun h => h)
    · next hlast =>
      simp only [Bool.false_eq_true, or_self, if_false, RemNext]
      exact hfin 16 _ acc' hpush (by omega) rfl rfl (fun h => h)

theorem onePruneCas {c : Call K P} (x : Ctx cfg A m c.inv) {parent : Loc} {child : Word} {acc : PAcc}
    {deleted : P} {ref : Nat} {rest : List (Loc × Word)} {h : BitVec 64}
    (hpc : c.pc = .pruneCas parent child acc (.clean deleted ref rest)) (hi : PCInv cfg A m c) (ho : OInv cfg m I (some (h, c.pc))) :
    RemNext cfg (tick cfg m weak c.pc).1.bump I h (tick cfg m weak c.pc).2 ∧
    ∀ a, c.pc.on = some a → (tick cfg m weak c.pc).1.bump.retired a ≠ none := by
  simp only [PCInv, hpc] at hi
  have hr' := ho.r _ _ rfl
  rw [hpc] at hr' ho
  obtain ⟨hk, a2, cs2, q2, h1, h2, h3, h4, haccok⟩ := hi
  have hon : OnNode m h parent child rest 16 acc := hr'
  obtain ⟨hlv, hlt, a, cs, rfl, hm, hat, hacc, hcond⟩ := hr'
  have ea : a = a2 := by cases h1; rfl
  subst ea
  have ec : cs = cs2 := by rw [hm] at h2; cases h2; rfl
  have eq2 : pre h rest.length = q2 := by rw [hm] at h2; cases h2; rfl
  subst ec
  subst eq2
  obtain ⟨w, hr, hatw, hheld, hok⟩ := x.read h4
  have hnn := x.h.fresh _ (Nat.le_refl _)
  have hderef : m.deref a = some (.inner cs (pre h rest.length)) := by simp [Mem.deref, x.hfree a h3, hm]
  have hplen : (pre h rest.length).length = rest.length := pre_length _ (by omega)
  by_cases hw : w = ⟨some a, false, false⟩
  · subst hw
    cases hd : acc.decide with
    | mk ins res =>
      cases ins with
      | word w' =>
        have htick : tick cfg m weak c.pc = (m.swing parent w' none (some a), afterPrune res (.clean deleted ref rest)) := by
          simp [hpc, tick, tickPruneCas, hr, hderef, hd]; rfl
        obtain ⟨habs, g1, g2, g3, g4, g5⟩ := ho.pruned x.h x.hA hon rfl rfl hm rfl hatw haccok hacc
          (Or.inl ⟨by rw [hd], rfl⟩) (swing_swung hatw hnn w' none (some a))
        rw [htick]
        refine ⟨?_, by intro b e; rw [hpc] at e; cases e; exact g5⟩
        simp only [afterPrune, decide_word hd, if_false]
        exact enterClean_one g2 g1
      | copy cells =>
        have htick : tick cfg m weak c.pc = (m.swing parent ⟨some m.next, false, false⟩ (some (.inner cells (pre h rest.length))) (some a),
            afterPrune res (.clean deleted ref rest)) := by
          simp [hpc, tick, tickPruneCas, hr, hderef, hd]; rfl
        obtain ⟨habs, g1, g2, g3, g4, g5⟩ := ho.pruned x.h x.hA hon rfl rfl hm rfl hatw haccok hacc
          (Or.inr ⟨cells, by rw [hd], rfl, rfl⟩) (swing_swung hatw hnn _ _ (some a))
        rw [htick]
        refine ⟨?_, by intro b e; rw [hpc] at e; cases e; exact g5⟩
        simp only [afterPrune, (decide_copy hd).1, if_true]
        refine rem_done_one (h := h) (n := rest.length) (g1.change ?_ (fun _ _ _ h => h)) (fun _ _ _ h => h) (g3 (by simp)) (by omega)
        rintro b c p - - (e | e | ⟨e1, e2⟩)
        · exact Or.inl e
        · exact Or.inr (Or.inl e)
        · exact Or.inr (Or.inr ⟨e1, by omega⟩)
  · have htick : tick cfg m weak c.pc = (m, afterPrune .casFail (.clean deleted ref rest)) := by
      simp [hpc, tick, tickPruneCas, hr, hderef, hw]
    have hret : m.retired a ≠ none := by
      intro e
      obtain ⟨-, e2⟩ := At_unique (hat e) hatw
      exact hw e2.symm
    rw [htick]
    refine ⟨?_, by intro b e; rw [hpc] at e; cases e; exact hret⟩
    have hclean : RemNext cfg m.bump I h (enterClean deleted ref rest : Next K P) := by
      refine enterClean_one (hlv.same rfl rfl) ?_
      have : SInv cfg m (fun p => (∃ k, I k ∧ exTrav cfg (m.abs cfg) k p) ∨ exRem h rest.length p) noCd := by
        refine ho.s.change ?_ ?_
        · rintro b c p - - (e | e | ⟨h', pc', e1, e2⟩)
          · exact Or.inl e
          · exact Or.inr (Or.inl e)
          · cases e1
            have : (PC.pruneCas parent ⟨some a, false, false⟩ acc (.clean deleted ref rest) : PC K P).todo m = rest.length := by
              simp [PC.todo, liveBit, hret]
            rw [this] at e2
            exact Or.inr (Or.inr e2)
        · rintro b i hb ⟨h', pc', e1, e2⟩
          cases e1
          simp only [PC.on, Option.some.injEq] at e2
          subst e2
          exact absurd hb hret
      exact this.same rfl rfl rfl
    simpa [afterPrune] using hclean

end Contrie
