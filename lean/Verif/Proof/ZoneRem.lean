import Verif.Proof.ZoneStep
/-
Executions in which removals of keys below `g` do not overlap: the steps of the removal of such a key.
-/
set_option linter.unusedSectionVars false
namespace Contrie
variable {K P : Type} [DecidableEq K]
variable {cfg : Config K P} {A : Nat → AMap K P} {W : Nat → Option (LP K P)} {m m' : Mem P} {weak : Bool}
  {I : K → Prop} {R : Option (BitVec 64 × PC K P)} {g : List (Fin 16)}

theorem HelpZ.setR {R' : Option (BitVec 64 × PC K P)} {child : Word} {n : Nat} {acc : PAcc} (h : HelpZ g m R child n acc) (hk : Keep g m R R') :
    HelpZ g m R' child n acc := by
  obtain ⟨a, c, q, h1, h2, h3, h4, h5⟩ := h
  refine ⟨a, c, q, h1, h2, ?_, h4, h5⟩
  intro e1 e2
  rcases h3 e1 e2 with e | e
  · exact hk a c q h2 e1 e2 e
  · exact Or.inr e

theorem HelpZPC.setR {R' : Option (BitVec 64 × PC K P)} {pc : PC K P} (h : HelpZPC g m R pc) (hk : Keep g m R R') : HelpZPC g m R' pc := by
  unfold HelpZPC at h ⊢
  split <;> simp only at h
  · exact HelpZ.setR h hk
  · exact HelpZ.setR h hk
  · trivial

/-- The memory has changed, now the removal moves on. -/
theorem ZInv.move {h : BitVec 64} {pc : PC K P} (ho : ZInv cfg g m I (some (h, pc))) {next : Next K P}
    (hgo : ∀ pc' ran, next = .goto pc' ran → RemZ g m h pc' ∧ HelpZPC g m (some (h, pc')) pc' ∧ Keep g m (some (h, pc)) (some (h, pc')) ∧
      ∀ p, BelowZ g p → exRem h (pc.todo m) p → Just cfg (m.abs cfg) I p ∨ exRem h (pc'.todo m) p)
    (hret : ∀ r refs, next = .ret r refs → Keep g m (some (h, pc)) none ∧ ∀ p, BelowZ g p → exRem h (pc.todo m) p → Just cfg (m.abs cfg) I p) :
    ZRem cfg g m I h (some (h, pc)) next := by
  cases next with
  | goto pc' ran =>
    obtain ⟨h1, h2, h3, h4⟩ := hgo pc' ran rfl
    refine ⟨ho.setR ?_ ?_ ?_, h2, h3⟩
    · intro p hb he
      rcases h4 p hb he with e | e
      · exact Or.inl e
      · exact Or.inr ⟨pc', rfl, e⟩
    · intro a c p e1 e2 e3 e4; exact h3 a c p e1 e3 e2 ⟨_, _, rfl, e4⟩
    · intro h' pc'' e; cases e; exact ⟨rfl, h1⟩
  | ret r refs =>
    obtain ⟨h1, h2⟩ := hret r refs rfl
    refine ⟨ho.setR (fun p hb he => Or.inl (h2 p hb he)) ?_ ?_, h1⟩
    · intro a c p e1 e2 e3 e4; exact h1 a c p e1 e3 e2 ⟨_, _, rfl, e4⟩
    · intro h' pc'' e; cases e
  | fail => trivial

theorem exRem_zero {h : BitVec 64} {n : Nat} (hn : n = 0) {p : List (Fin 16)} : ¬ exRem h n p := by
  subst hn; rintro ⟨-, e⟩; exact absurd e (Nat.not_lt_zero _)

/-- Steps that start and end outside of the clean-up phase. -/
theorem ZOut.toRem {h : BitVec 64} {pc : PC K P} {next : Next K P} {ok : Prop} (hout : ZOut cfg g m I (some (h, pc)) ok next) (h0 : pc.on = none)
    (ht : pc.todo m = 0) (hr : ∀ pc' ran, next = .goto pc' ran → RemZ g m h pc') : ZRem cfg g m I h (some (h, pc)) next := by
  cases next with
  | goto pc' ran =>
    refine ZInv.move hout.1 ?_ (by intro _ _ e; cases e)
    intro pc'' ran' e
    cases e
    exact ⟨hr _ _ rfl, hout.2.setR (keep_none h0), keep_none h0, fun p _ e => absurd e (exRem_zero ht)⟩
  | ret r refs =>
    refine ZInv.move hout.1 (by intro _ _ e; cases e) ?_
    intro _ _ _
    exact ⟨keep_none h0, fun p _ e => absurd e (exRem_zero ht)⟩
  | fail => trivial

theorem zoneRRem {c : Call K P} (x : Ctx cfg A m c.inv) {key : K} {shift : Nat} {cur : Loc} {levels : List (Loc × Word)}
    (hpc : c.pc = .rem key shift cur levels) (hi : PCInv cfg A m c) (hh : Helps m c.pc) (ho : ZInv cfg g m I (some (cfg.hash key, c.pc))) :
    ZRem cfg g (tick cfg m weak c.pc).1.bump I (cfg.hash key) (some (cfg.hash key, c.pc)) (tick cfg m weak c.pc).2 := by
  have hout := zoneRem (weak := weak) x hpc hi hh ho
  refine hout.toRem (by rw [hpc]; rfl) (by rw [hpc]; rfl) ?_
  have hr' := (ho.r _ _ rfl).2
  rw [hpc] at hr'
  have hlv : LevelsZ g m (cfg.hash key) levels := hr'
  simp only [PCInv, hpc] at hi
  obtain ⟨hreq, hcalls, d, rfl, ht⟩ := hi
  obtain ⟨w, hr, hat, hheld, hok⟩ := x.read ht.loc
  intro pc' ran
  simp only [hpc, tick, tickRem, hr]
  cases hp : w.ptr with
  | none => intro e; cases e
  | some a =>
    simp only
    cases hcond : w.cond with
    | true =>
      simp only [if_true]
      cases levels with
      | nil => intro e; cases e
      | cons y rest =>
        simp only [enterPrune]
        split
        · intro e; cases e
        · split
          · intro e; cases e
          · intro e; cases e; trivial
    | false =>
      simp only [Bool.false_eq_true, if_false]
      cases hdt : w.data with
      | true =>
        simp only [if_true]
        split
        · intro e; cases e
        · split
          · intro e; cases e
          · intro e; cases e; exact hlv.same rfl rfl
      | false =>
        simp only [Bool.false_eq_true, if_false]
        split
        · intro e; cases e
        · split
          · intro e; cases e
          · intro e; cases e
            obtain ⟨h1, h2, ⟨cs, h3⟩, h4⟩ := x.descend ht.len hok hheld hp hdt
            refine ⟨⟨a, cs, word_eq_inner hp hdt hcond, ?_, ?_⟩, hlv.same rfl rfl⟩
            · rw [ht.levels_len]; exact h3
            · intro _; rw [ht.levels_len]; exact hat

/-- The removal goes up one level. -/
theorem enterClean_zone {h : BitVec 64} {pc : PC K P} {deleted : P} {ref : Nat} {lv : List (Loc × Word)} (ho : ZInv cfg g m I (some (h, pc)))
    (hl : LevelsZ g m h lv) (hk : ∀ R', Keep g m (some (h, pc)) R')
    (hex : ∀ p, BelowZ g p → exRem h (pc.todo m) p → Just cfg (m.abs cfg) I p ∨ exRem h lv.length p) :
    ZRem cfg g m I h (some (h, pc)) (enterClean deleted ref lv : Next K P) := by
  refine ho.move ?_ ?_
  · intro pc' ran e
    cases lv with
    | nil => cases e
    | cons x rest =>
      obtain ⟨loc, w⟩ := x
      have hl' := hl
      obtain ⟨⟨a, c, rfl, h2, h3⟩, -⟩ := hl
      cases e
      exact ⟨⟨hl', fun _ => CountOK.init rfl h2⟩, trivial, hk _, hex⟩
  · intro r refs e
    cases lv with
    | nil =>
      refine ⟨hk _, fun p hb he => ?_⟩
      rcases hex p hb he with e | e
      · exact e
      · exact absurd e (exRem_zero rfl)
    | cons x rest =>
      obtain ⟨loc, w⟩ := x
      obtain ⟨⟨a, c, rfl, h2, h3⟩, -⟩ := hl
      cases e

theorem zoneRRemCas {c : Call K P} (x : Ctx cfg A m c.inv) {key : K} {shift : Nat} {cur : Loc}
    {levels : List (Loc × Word)} {node : Word} {new : List P} {deleted : P}
    (hpc : c.pc = .remCas key shift cur levels node new deleted) (hi : PCInv cfg A m c)
    (hok' : TickOK cfg A W m c (tick cfg m weak c.pc)) (hW : W m.clock = lpOf cfg m weak c)
    (ho : ZInv cfg g m I (some (cfg.hash key, c.pc))) :
    ZRem cfg g (tick cfg m weak c.pc).1.bump I (cfg.hash key) (some (cfg.hash key, c.pc)) (tick cfg m weak c.pc).2 := by
  simp only [PCInv, hpc] at hi
  obtain ⟨hreq, hcalls, d, a, items, rfl, ht, rfl, hh, hm, hdok, hnew, hf⟩ := hi
  obtain ⟨hg, hr'⟩ := ho.r _ _ rfl
  have hon0 : c.pc.on = none := by rw [hpc]; rfl
  have htodo0 : c.pc.todo m = 0 := by rw [hpc]; rfl
  rw [hpc] at hr'
  have hlv : LevelsZ g m (cfg.hash key) levels := hr'
  obtain ⟨w, hr, hat, hheld, hok⟩ := x.read ht.loc
  have hnn := x.h.fresh _ (Nat.le_refl _)
  by_cases hsucc : w = ⟨some a, false, true⟩ ∧ weak = false
  · obtain ⟨rfl, rfl⟩ := hsucc
    have hWs : W m.clock = some ⟨c.inv, .remove key, .opt (some deleted)⟩ := by
      rw [hW]; simp [lpOf, hpc, hreq, hr]
    have hlp := hok'.lp
    rw [hWs] at hlp
    simp only [AMap.apply, Prod.mk.injEq] at hlp
    have habs := hlp.2.2.1
    have hlf : (⟨some a, false, true⟩ : Word).isLeaf := Or.inr rfl
    have fin : ∀ w' new, w'.cond = false → (∀ c p, new ≠ some (.inner c p)) →
        tick cfg m false c.pc = (m.swing cur w' new (some a), enterClean deleted a levels) →
        ZRem cfg g (tick cfg m false c.pc).1.bump I (cfg.hash key) (some (cfg.hash key, c.pc)) (tick cfg m false c.pc).2 := by
      intro w' new hw' hn htick
      have hsw := swing_swung hat hnn w' new (some a)
      rw [htick] at habs ⊢
      simp only at habs ⊢
      have habs' : (m.swing cur w' new (some a)).bump.abs cfg = (m.abs cfg).set key none := by
        rw [habs]; exact abs_mem rfl rfl
      have hlv' : LevelsZ g (m.swing cur w' new (some a)).bump (cfg.hash key) levels := by
        refine hlv.swung_above hsw hat ?_ ?_
        · rw [ht.levels_len]; exact ht.len
        · rw [ht.levels_len, pre_length _ ht.len]
      have hs : ZS cfg g (m.swing cur w' new (some a)).bump
          (fun p => (∃ k, I k ∧ exTrav cfg ((m.swing cur w' new (some a)).bump.abs cfg) k p) ∨ exRem (cfg.hash key) levels.length p) (fun _ => False) := by
        refine ho.s.swung hsw hat rfl hw' ?_ (fun c p e => absurd e (hn c p)) ?_
        · intro b cb p h1 h2 h3 _ h4
          have h4 : Just cfg (m.abs cfg) I p := by
            rcases exW.just h4 with h4 | ⟨h, pc, e1, e2⟩
            · exact h4
            · cases e1; exact absurd e2 (exRem_zero htodo0)
          by_cases hp : p <+: nibs (cfg.hash key)
          · right
            refine Or.inr ⟨hp, ?_⟩
            apply Classical.byContradiction
            intro hge
            rw [ht.levels_len] at hge
            have h5 : pre (cfg.hash key) d <+: p := by
              rw [pre_of_prefix hp]; exact List.take_prefix_take_left (by omega)
            obtain ⟨t, rfl⟩ := h5
            have h6 := x.h.inner_at h1 h2
            rw [follow_append' (x.h.at_follow hat rfl)] at h6
            have := (hlf.follow h6).2
            cases this
          · have hne : ∀ k, Under cfg (m.abs cfg) p k → Under cfg ((m.abs cfg).set key none) p k := by
              intro k hk
              have : k ≠ key := by intro e; subst e; exact hp hk.1
              exact ⟨hk.1, by simp only [AMap.set, this, if_false]; exact hk.2⟩
            rw [habs']
            rcases h4 with ⟨k1, k2, g1, g2, g3⟩ | ⟨k, g1, g2, k', g3, g4⟩
            · exact Or.inl ⟨k1, k2, g1, hne _ g2, hne _ g3⟩
            · exact Or.inr (Or.inl ⟨k, g1, g2, k', g3, hne _ g4⟩)
        · rintro b - ⟨h', pc', e1, e2⟩
          cases e1
          rw [hon0] at e2; cases e2
      cases hlv2 : levels with
      | nil =>
        refine ⟨⟨hs.change ?_ (fun _ _ _ _ _ _ h => h.elim), by intro h pc e; cases e⟩, keep_none hon0⟩
        rintro b c p - - - (e | e | e)
        · exact Or.inl e
        · exact Or.inr (Or.inl e)
        · rw [hlv2] at e; exact absurd e (exRem_zero rfl)
      | cons y rest =>
        obtain ⟨loc, w⟩ := y
        rw [hlv2] at hlv' hs
        have hlv3 := hlv'
        obtain ⟨⟨b, cb, rfl, h2, h3⟩, -⟩ := hlv'
        simp only [enterClean, ZRem]
        refine ⟨⟨hs.change ?_ (fun _ _ _ _ _ _ h => h.elim), ?_⟩, trivial, keep_none hon0⟩
        · rintro b c p - - - (e | e | e)
          · exact Or.inl e
          · exact Or.inr (Or.inl e)
          · exact Or.inr (Or.inr ⟨_, _, rfl, e⟩)
        · rintro h' pc' e
          cases e
          exact ⟨hg, hlv3, fun _ => CountOK.init rfl h2⟩
    cases hn : new with
    | nil =>
      refine fin Word.null none rfl (by intro c p e; cases e) ?_
      simp [hpc, tick, tickRemCas, hr, hn]; rfl
    | cons y rest =>
      refine fin ⟨some m.next, false, true⟩ (some (.data new)) rfl (by intro c p e; cases e) ?_
      subst hn
      simp [hpc, tick, tickRemCas, hr]; rfl
  · have htick : tick cfg m weak c.pc = (m, .goto (.rem key (LEVEL_BITS * d) cur levels) false) := by
      simp [hpc, tick, tickRemCas, hr, hsucc]
    rw [htick]
    refine ho.bump.move ?_ (by intro _ _ e; cases e)
    intro pc' ran e
    cases e
    exact ⟨hlv.same rfl rfl, trivial, keep_none hon0, fun p _ e => absurd e (exRem_zero (by rw [hpc]; rfl))⟩

theorem zoneRCount {c : Call K P} (x : Ctx cfg A m c.inv) {deleted : P} {ref : Nat} {parent : Loc} {child : Word}
    {rest : List (Loc × Word)} {i : Fin 16} {cnt : Nat} {h : BitVec 64}
    (hpc : c.pc = .count deleted ref parent child rest i cnt) (hi : PCInv cfg A m c) (ho : ZInv cfg g m I (some (h, c.pc))) :
    ZRem cfg g (tick cfg m weak c.pc).1.bump I h (some (h, c.pc)) (tick cfg m weak c.pc).2 := by
  simp only [PCInv, hpc] at hi
  obtain ⟨hreq, hcalls, hcl, hpair⟩ := hi
  obtain ⟨hg, hr'⟩ := ho.r _ _ rfl
  have hon0 : c.pc.on = none := by rw [hpc]; rfl
  have htodo : ∀ m : Mem P, c.pc.todo m = rest.length + 1 := by intro m; rw [hpc]; rfl
  rw [hpc] at hr'
  obtain ⟨hlv, hcnt⟩ := hr'
  have hlen := hlv.len x.h
  have hlv0 := hlv
  obtain ⟨⟨a, cs, rfl, hm, hat⟩, hlrest⟩ := hlv0
  simp only [List.length_cons] at hlen
  have hplen : (pre h rest.length).length = rest.length := pre_length _ (by omega)
  obtain ⟨a2, cs2, q2, h1, h2, h3, h4⟩ := hpair
  simp only at h1
  cases h1
  obtain ⟨w, hr, hatw, -, -⟩ := x.read (loc := .slot a i) (q := q2 ++ [i]) ⟨cs2, q2, h2, rfl, h3⟩
  obtain ⟨c3, p3, hm3, -, rfl⟩ := hatw
  rw [hm] at hm3; cases hm3
  have hsimp : tick cfg m weak c.pc = (m, tickCount m deleted ref parent ⟨some a, false, false⟩ rest i cnt) := by rw [hpc]; rfl
  rw [hsimp]
  simp only [tickCount, hr]
  generalize hcnt' : (if (cs i).ptr.isSome = true then cnt + 1 else cnt) = cnt'
  have hok : g.length < rest.length → (1 ≤ cnt' → ∃ j : Fin 16, j.val < i.val + 1 ∧ (cs j).ptr ≠ none) ∧
      (2 ≤ cnt' → ∃ j j' : Fin 16, j ≠ j' ∧ (cs j).ptr ≠ none ∧ (cs j').ptr ≠ none) := by
    intro hgl
    obtain ⟨a4, c4, p4, g1, g2, g3, g4⟩ := hcnt hgl
    cases g1
    rw [hm] at g2; cases g2
    refine ⟨?_, ?_⟩
    · intro hc
      split at hcnt'
      · next he => exact ⟨i, by omega, by intro e; rw [e] at he; cases he⟩
      · subst hcnt'; obtain ⟨j, e1, e2⟩ := g3 hc; exact ⟨j, by omega, e2⟩
    · intro hc
      split at hcnt'
      · next he =>
        obtain ⟨j, e1, e2⟩ := g3 (by omega)
        exact ⟨j, i, by intro e; subst e; omega, e2, by intro e; rw [e] at he; cases he⟩
      · subst hcnt'; exact g4 hc
  split
  · refine ho.bump.move ?_ (by intro _ _ e; cases e)
    intro pc' ran e
    cases e
    refine ⟨⟨hlv.same rfl rfl, fun hgl => ?_⟩, trivial, keep_none hon0, fun p _ e => Or.inr (by rw [htodo] at e; exact e)⟩
    exact ⟨a, cs, _, rfl, hm, (hok hgl).1, (hok hgl).2⟩
  · split
    · refine ho.bump.move (by intro _ _ e; cases e) ?_
      intro _ _ _
      refine ⟨keep_none hon0, ?_⟩
      intro p hb he
      rw [htodo] at he
      by_cases hgl : g.length < rest.length
      · have hb2 : BelowZ g (pre h rest.length) := (below_pre hg (by omega)).mpr hgl
        have hret : m.retired a = none := x.h.live _ _ a (x.h.at_follow (hat hgl) rfl) rfl
        obtain ⟨j, j', e1, e2, e3⟩ := (hok hgl).2 (by omega)
        have htwo : Two cfg (m.abs cfg) (pre h rest.length) := by
          refine ho.s.cells_two (I := I) x.h hm hret hb2.1 e1 e2 e3 ?_
          intro i e
          rcases exW.just e with e | ⟨h', pc', e, -, e'⟩
          · exact e
          · cases e
            rw [htodo, List.length_append, hplen] at e'
            simp at e'
        have habs : m.bump.abs cfg = m.abs cfg := abs_mem rfl rfl
        rw [habs]
        refine Just.up (Or.inl htwo) ?_
        rw [pre_of_prefix he.1]
        exact List.take_prefix_take_left (by have := he.2; omega)
      · exfalso
        have := he.2
        have := hb.2
        omega
    · refine ho.bump.move ?_ (by intro _ _ e; simp [enterPrune] at e)
      intro pc' ran e
      simp only [enterPrune, Bool.false_eq_true, if_false] at e
      cases e
      refine ⟨⟨hlrest.same rfl rfl, by omega, a, cs, rfl, hm, fun e _ => hat e⟩, ?_, keep_none hon0, ?_⟩
      · exact ⟨a, cs, _, rfl, hm, fun _ _ => Or.inl ⟨_, _, rfl, rfl⟩, Acc2.init _ cs, by intro j hj; simp at hj⟩
      · intro p hb he
        rw [htodo] at he
        refine Or.inr ⟨he.1, ?_⟩
        have h1 := he.2
        have h2 := hb.2
        by_cases hgl : g.length < rest.length
        · have hret : m.retired a = none := x.h.live _ _ a (x.h.at_follow (hat hgl) rfl) rfl
          have : (PC.prune parent ⟨some a, false, false⟩ 0 PAcc.init (.clean deleted ref rest) : PC K P).todo m.bump = rest.length + 1 := by
            simp [PC.todo, liveBit, Mem.bump, hret]
          omega
        · omega

/-- Marking a cell: the removal stays where it is. -/
theorem zoneRPrune {c : Call K P} (x : Ctx cfg A m c.inv) {parent : Loc} {child : Word} {i : Fin 16} {acc : PAcc} {k : Cont K P} {h : BitVec 64}
    (hpc : c.pc = .prune parent child i acc k) (hi : PCInv cfg A m c) (ho : ZInv cfg g m I (some (h, c.pc)))
    (hh : HelpZPC g m (some (h, c.pc)) c.pc) :
    ZRem cfg g (tick cfg m weak c.pc).1.bump I h (some (h, c.pc)) (tick cfg m weak c.pc).2 := by
  have hout := zonePrune (ok := True) (weak := weak) x hpc hi ho hh
  have hshape : (∃ f, (tick cfg m weak c.pc).2 = .fail f) ∨ ∃ pc', (tick cfg m weak c.pc).2 = .goto pc' false ∧
      ((∃ i' acc', pc' = .prune parent child i' acc' k) ∨ ∃ acc', pc' = .pruneCas parent child acc' k) := by
    rw [hpc]
    simp only [tick, tickPrune]
    split
    · exact Or.inl ⟨_, rfl⟩
    · split
      · exact Or.inl ⟨_, rfl⟩
      · split
        · exact Or.inl ⟨_, rfl⟩
        · split
          · exact Or.inr ⟨_, rfl, Or.inl ⟨_, _, rfl⟩⟩
          · split
            · exact Or.inl ⟨_, rfl⟩
            · exact Or.inr ⟨_, rfl, Or.inr ⟨_, rfl⟩⟩
  generalize (tick cfg m weak c.pc).1.bump = m1 at *
  rcases hshape with ⟨f, e⟩ | ⟨pc', e, hpc'⟩
  · rw [e]; trivial
  · rw [e] at hout ⊢
    have hsame : pc'.on = c.pc.on ∧ pc'.todo m1 = c.pc.todo m1 ∧ (RemZ g m1 h c.pc → RemZ g m1 h pc') := by
      rw [hpc]
      rcases hpc' with ⟨i', acc', rfl⟩ | ⟨acc', rfl⟩ <;> cases k <;> exact ⟨rfl, rfl, fun h => h⟩
    have hkeep : Keep g m1 (some (h, c.pc)) (some (h, pc')) := by
      rintro a cs q - - - ⟨h', pc'', e1, e2⟩
      cases e1
      exact Or.inl ⟨_, _, rfl, by rw [hsame.1]; exact e2⟩
    refine hout.1.move ?_ (by intro _ _ e; cases e)
    intro pc'' ran e
    cases e
    exact ⟨hsame.2.2 (hout.1.r _ _ rfl).2, hout.2.setR hkeep, hkeep, fun p _ e => Or.inr (by rw [hsame.2.1]; exact e)⟩

/-- The CAS of `prune`: the removal goes on with the next level, or is done. -/
theorem zoneRPruneCas {c : Call K P} (x : Ctx cfg A m c.inv) {parent : Loc} {child : Word} {acc : PAcc} {k : Cont K P} {h : BitVec 64}
    (hpc : c.pc = .pruneCas parent child acc k) (hi : PCInv cfg A m c) (ho : ZInv cfg g m I (some (h, c.pc)))
    (hh : HelpZPC g m (some (h, c.pc)) c.pc) (hk : ∀ st hash mode, k ≠ .trav st hash mode) :
    ZRem cfg g (tick cfg m weak c.pc).1.bump I h (some (h, c.pc)) (tick cfg m weak c.pc).2 := by
  obtain ⟨a, q, cs, res, rfl, hm, hall, e, hz, hcopy, hgone⟩ := zonePruneCas (weak := weak) x hpc hi ho hh
  obtain ⟨hg, hr0⟩ := ho.r _ _ rfl
  have hr1 := (hz.r _ _ rfl).2
  rw [e]
  generalize (tick cfg m weak c.pc).1.bump = m1 at *
  cases k with
  | trav => exact absurd rfl (hk _ _ _)
  | rem key =>
    have hon0 : c.pc.on = none := by rw [hpc]; rfl
    refine hz.move ?_ (by intro _ _ e; cases e)
    intro pc' ran e
    cases e
    exact ⟨trivial, trivial, keep_none hon0, fun p _ e => absurd e (exRem_zero (by rw [hpc]; rfl))⟩
  | clean deleted ref rest =>
    rw [hpc] at hr0 hr1
    have htodo : c.pc.todo m1 = rest.length + liveBit m1 ⟨some a, false, false⟩ := by rw [hpc]; rfl
    obtain ⟨h1, h2, a', c', h3, h4, h5⟩ := hr1
    cases h3
    rw [hm] at h4; cases h4
    obtain ⟨-, -, a0, c0, f3, f4, f5⟩ := hr0
    cases f3
    have hplen : (pre h rest.length).length = rest.length := pre_length _ (by omega)
    have hret : g.length < rest.length → m1.retired a ≠ none := by
      intro hgl e
      rcases hgone with e' | ⟨e', e''⟩
      · exact e' e
      · rw [e'] at e
        exact e'' (f5 hgl e)
    have hkeep : ∀ R', Keep g m1 (some (h, c.pc)) R' := by
      rintro R' b cb qb e1 e2 e3 ⟨h', pc', e4, e5⟩
      cases e4
      rw [hpc] at e5
      cases e5
      rw [hm] at e1; cases e1
      refine Or.inr ⟨?_, hall⟩
      apply Classical.byContradiction
      intro hne
      have hl := e2.length_le
      rw [hplen] at hl
      rcases Nat.lt_or_ge g.length rest.length with hgl | hgl
      · exact hret hgl e3
      · exact hne (e2.eq_of_length (by rw [hplen]; omega)).symm
    have hex : ∀ p, BelowZ g p → exRem h (c.pc.todo m1) p → exRem h rest.length p := by
      rintro p hb ⟨e1, e2⟩
      refine ⟨e1, ?_⟩
      rw [htodo] at e2
      have := hb.2
      have hlb : liveBit m1 (⟨some a, false, false⟩ : Word) ≤ 1 := by unfold liveBit; split <;> (try split) <;> omega
      rcases Nat.lt_or_ge g.length rest.length with hgl | hgl
      · have : liveBit m1 (⟨some a, false, false⟩ : Word) = 0 := by simp [liveBit, hret hgl]
        omega
      · omega
    simp only [afterPrune]
    split
    · next hc =>
      refine hz.move (by intro _ _ e; cases e) ?_
      intro _ _ _
      refine ⟨hkeep _, fun p hb he => ?_⟩
      have he := hex p hb he
      have hbq : BelowZ g (pre h rest.length) := (below_pre hg (by omega)).mpr (by have := hb.2; have := he.2; omega)
      refine (hcopy hc hbq).up ?_
      rw [pre_of_prefix he.1]
      exact List.take_prefix_take_left (by have := he.2; omega)
    · exact enterClean_zone hz h1 hkeep (fun p hb he => Or.inr (hex p hb he))

/-- A step of the removal of a key below `g`. -/
theorem zoneRemTick {c : Call K P} (x : Ctx cfg A m c.inv) (hi : PCInv cfg A m c) (hh : Helps m c.pc) (hl : LinInv W m.clock c)
    (hW : W m.clock = lpOf cfg m weak c) {k : K} (hreq : c.req = .op (.remove k)) (ho : ZInv cfg g m I (some (cfg.hash k, c.pc)))
    (hp : HelpZPC g m (some (cfg.hash k, c.pc)) c.pc) :
    ZRem cfg g (tick cfg m weak c.pc).1.bump I (cfg.hash k) (some (cfg.hash k, c.pc)) (tick cfg m weak c.pc).2 := by
  have h := hi
  unfold PCInv at h
  cases hpc : c.pc with
  | get => simp only [hpc] at h; rw [h.1] at hreq; cases hreq
  | isEmpty => simp only [hpc] at h; rw [h.1] at hreq; cases hreq
  | iterNew => simp only [hpc] at h; rw [h.1] at hreq; cases hreq
  | iterNext => simp only [hpc] at h; rw [h.1] at hreq; cases hreq
  | trav st hash mode shift cur parent =>
    simp only [hpc] at h
    obtain ⟨d, -, ht⟩ := h
    have := ht.req.insKey (cfg := cfg)
    rw [hreq] at this; cases this
  | travCas st hash mode shift cur parent node new kind =>
    simp only [hpc] at h
    obtain ⟨d, -, ht, -⟩ := h
    have := ht.req.insKey (cfg := cfg)
    rw [hreq] at this; cases this
  | rem key =>
    have hk : key = k := by
      simp only [hpc] at h
      rw [hreq] at h
      have := h.1
      injection this with this; injection this with this; exact this.symm
    subst hk
    rw [← hpc]; exact zoneRRem x hpc hi hh ho
  | remCas key shift cur levels node new deleted =>
    have hk : key = k := by
      simp only [hpc] at h
      rw [hreq] at h
      have := h.1
      injection this with this; injection this with this; exact this.symm
    subst hk
    rw [← hpc]; exact zoneRRemCas x hpc hi (tick_ok x hi hl hW) hW ho
  | count => rw [← hpc]; exact zoneRCount x hpc hi ho
  | prune parent child i acc kk => rw [← hpc]; exact zoneRPrune x hpc hi ho hp
  | pruneCas parent child acc kk =>
    rw [← hpc]
    refine zoneRPruneCas x hpc hi ho hp ?_
    rintro st hash mode rfl
    simp only [hpc] at h
    have := h.1.1.insKey (cfg := cfg)
    rw [hreq] at this; cases this

end Contrie
