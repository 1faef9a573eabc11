import Verif.Proof.Path
/-
Bookkeeping for C53: what a call has seen in the cells it is going to compare with, and who can change them.
-/
set_option linter.unusedSectionVars false
namespace Contrie
variable {K P : Type} [DecidableEq K]

/-- The cell a search is at. -/
def PC.cur : PC K P → Option Loc
  | .trav _ _ _ _ cur _ => some cur
  | .travCas _ _ _ _ cur _ _ _ _ => some cur
  | .rem _ _ cur _ => some cur
  | .remCas _ _ cur _ _ _ _ => some cur
  | _ => none

/-- The cells a call remembers, deepest first. -/
def PC.locs (pc : PC K P) : List Loc := pc.cur.toList ++ pc.pairs.map Prod.fst

/-- The cell an update is about to replace, and the word it has read there. -/
def PC.pendingCas : PC K P → Option (Loc × Word)
  | .travCas _ _ _ _ cur _ node _ _ => some (cur, node)
  | .remCas _ _ cur _ node _ _ => some (cur, node)
  | _ => none

/-- The cells with remembered contents. -/
def PC.watch (pc : PC K P) : List (Loc × Word) := pc.pendingCas.toList ++ pc.pairs

/-- Depth of a cell. -/
def Mem.depth (m : Mem P) : Loc → Nat
  | .root => 0
  | .slot a _ => match m.mem a with
    | some (.inner _ p) => p.length + 1
    | _ => 0

theorem LocAt.depth {m : Mem P} {s : Nat} {l : Loc} {q : List (Fin 16)} (h : LocAt m s l q) : m.depth l = q.length := by
  cases l with
  | root => simp only [LocAt] at h; subst h; rfl
  | slot a i => obtain ⟨c, p, hm, rfl, -⟩ := h; simp [Mem.depth, hm]

theorem LocAt.depth_evo {m m' : Mem P} {s : Nat} {l : Loc} {q : List (Fin 16)} (h : LocAt m s l q) (he : Evo m m') : m'.depth l = m.depth l := by
  cases l with
  | root => rfl
  | slot a i =>
    obtain ⟨c, p, hm, rfl, -⟩ := h
    obtain ⟨c', hc', -⟩ := he.inner a c p hm
    simp [Mem.depth, hm, hc']

/-- Every remembered pair is in order. -/
theorem PCInv.pairs_ok {cfg : Config K P} {A : Nat → AMap K P} {m : Mem P} {c : Call K P} (hi : PCInv cfg A m c) : ∀ x ∈ c.pc.pairs, PairOK m c.inv x := by
  have cont : ∀ {k : Cont K P}, ContOK cfg m c.inv c.req c.calls k → ∀ x ∈ k.pairs, PairOK m c.inv x := by
    intro k hk x hx
    cases k with
    | trav => cases hx
    | rem => cases hx
    | clean d r rest => exact hk.2.levels_ok x hx
  cases hpc : c.pc with
  | trav st hash mode shift cur parent =>
    simp only [PCInv, hpc] at hi
    obtain ⟨d, -, hat⟩ := hi
    intro x hx
    exact hat.par x (by simpa [PC.pairs] using hx)
  | travCas st hash mode shift cur parent node new kind =>
    simp only [PCInv, hpc] at hi
    obtain ⟨d, -, hat, -⟩ := hi
    intro x hx
    exact hat.par x (by simpa [PC.pairs] using hx)
  | rem key shift cur levels =>
    simp only [PCInv, hpc] at hi
    obtain ⟨-, -, d, -, hat⟩ := hi
    exact hat.levels_ok
  | remCas key shift cur levels node new deleted =>
    simp only [PCInv, hpc] at hi
    obtain ⟨-, -, d, a, items, -, hat, -⟩ := hi
    exact hat.levels_ok
  | count deleted ref parent child rest i cnt =>
    simp only [PCInv, hpc] at hi
    obtain ⟨-, -, h1, h2⟩ := hi
    intro x hx
    rcases List.mem_cons.mp hx with rfl | hx
    · exact h2
    · exact h1.levels_ok x hx
  | prune parent child i acc k =>
    simp only [PCInv, hpc] at hi
    obtain ⟨h1, a, c', q, g1, g2, g3, g4, -⟩ := hi
    intro x hx
    rcases List.mem_cons.mp hx with rfl | hx
    · exact ⟨a, c', q, g1, g2, g3, g4⟩
    · exact cont h1 x hx
  | pruneCas parent child acc k =>
    simp only [PCInv, hpc] at hi
    obtain ⟨h1, a, c', q, g1, g2, g3, g4, -⟩ := hi
    intro x hx
    rcases List.mem_cons.mp hx with rfl | hx
    · exact ⟨a, c', q, g1, g2, g3, g4⟩
    · exact cont h1 x hx
  | _ => intro x hx; cases hx

theorem PCInv.cur_ok {cfg : Config K P} {A : Nat → AMap K P} {m : Mem P} {c : Call K P} (hi : PCInv cfg A m c) {l : Loc} (h : c.pc.cur = some l) :
    ∃ q, LocAt m c.inv l q := by
  cases hpc : c.pc with
  | trav st hash mode shift cur parent =>
    simp only [PCInv, hpc] at hi
    simp only [hpc, PC.cur, Option.some.injEq] at h
    obtain ⟨d, -, hat⟩ := hi
    exact ⟨_, h ▸ hat.loc⟩
  | travCas st hash mode shift cur parent node new kind =>
    simp only [PCInv, hpc] at hi
    simp only [hpc, PC.cur, Option.some.injEq] at h
    obtain ⟨d, -, hat, -⟩ := hi
    exact ⟨_, h ▸ hat.loc⟩
  | rem key shift cur levels =>
    simp only [PCInv, hpc] at hi
    simp only [hpc, PC.cur, Option.some.injEq] at h
    obtain ⟨-, -, d, -, hat⟩ := hi
    exact ⟨_, h ▸ hat.loc⟩
  | remCas key shift cur levels node new deleted =>
    simp only [PCInv, hpc] at hi
    simp only [hpc, PC.cur, Option.some.injEq] at h
    obtain ⟨-, -, d, a, items, -, hat, -⟩ := hi
    exact ⟨_, h ▸ hat.loc⟩
  | _ => rw [hpc] at h; cases h

theorem PCInv.locs_ok {cfg : Config K P} {A : Nat → AMap K P} {m : Mem P} {c : Call K P} (hi : PCInv cfg A m c) :
    ∀ l ∈ c.pc.locs, ∃ q, LocAt m c.inv l q := by
  intro l hl
  rcases List.mem_append.mp hl with h | h
  · exact hi.cur_ok (by simpa using h)
  · obtain ⟨x, hx, rfl⟩ := List.mem_map.mp h
    obtain ⟨a, c', q, -, -, -, h4⟩ := hi.pairs_ok x hx
    exact ⟨q, h4⟩

/-- The remembered cells get less and less deep. -/
def DepthChain (m : Mem P) (pc : PC K P) : Prop := (pc.locs.map m.depth).Pairwise (· > ·)

theorem DepthChain.evo {cfg : Config K P} {A : Nat → AMap K P} {m m' : Mem P} {c : Call K P} (hi : PCInv cfg A m c) (h : DepthChain m c.pc) (he : Evo m m') :
    DepthChain m' c.pc := by
  have : c.pc.locs.map m'.depth = c.pc.locs.map m.depth := by
    apply List.map_congr_left
    intro l hl
    obtain ⟨q, hq⟩ := hi.locs_ok l hl
    exact hq.depth_evo he
  rw [DepthChain, this]; exact h

theorem afterPrune_cur {r : PruneResult} {k : Cont K P} {pc : PC K P} {ran : Bool} (h : afterPrune r k = .goto pc ran) :
    pc.locs = k.pairs.map Prod.fst ∨ pc.locs = [.root] := by
  cases k with
  | trav st hash mode => cases h; exact .inr rfl
  | rem key => cases h; exact .inr rfl
  | clean d ref rest =>
    simp only [afterPrune] at h
    split at h
    · cases h
    · cases rest with
      | nil => cases h
      | cons x l =>
        obtain ⟨p, ch⟩ := x
        simp only [enterClean] at h
        split at h <;> cases h
        exact .inl rfl

theorem enterPrune_locs {p : Loc} {ch : Word} {k : Cont K P} {pc : PC K P} {ran : Bool} (h : enterPrune p ch k = .goto pc ran) :
    pc.locs = p :: k.pairs.map Prod.fst ∧ pc.pendingCas = none := by
  simp only [enterPrune] at h
  repeat' split at h
  all_goals cases h
  exact ⟨rfl, rfl⟩

theorem enterClean_locs {d : P} {r : Nat} {l : List (Loc × Word)} {pc : PC K P} {ran : Bool}
    (h : (enterClean d r l : Next K P) = .goto pc ran) : pc.locs = l.map Prod.fst ∧ pc.pendingCas = none := by
  cases l with
  | nil => cases h
  | cons x l =>
    obtain ⟨p, ch⟩ := x
    simp only [enterClean] at h
    split at h <;> cases h
    exact ⟨rfl, rfl⟩

/-- The remembered cells get less and less deep, and are cells. -/
def ChainOK (m : Mem P) (s : Nat) (pc : PC K P) : Prop := DepthChain m pc ∧ ∀ l ∈ pc.locs, ∃ q, LocAt m s l q

theorem ChainOK.of_locs {m : Mem P} {s : Nat} {pc : PC K P} {ls : List Loc} (e : pc.locs = ls) (h1 : (ls.map m.depth).Pairwise (· > ·))
    (h2 : ∀ l ∈ ls, ∃ q, LocAt m s l q) : ChainOK m s pc := by
  subst e; exact ⟨h1, h2⟩

theorem ChainOK.nil {m : Mem P} {s : Nat} {pc : PC K P} (e : pc.locs = []) : ChainOK m s pc := .of_locs e .nil (by intro l hl; cases hl)

/-- One step. -/
theorem tick_chain {cfg : Config K P} {A : Nat → AMap K P} {m : Mem P} {weak : Bool} {c : Call K P} (x : Ctx cfg A m c.inv)
    (hi : PCInv cfg A m c) (hch : ChainOK m c.inv c.pc) {pc' : PC K P} {ran : Bool} (h : (tick cfg m weak c.pc).2 = .goto pc' ran) : ChainOK m c.inv pc' := by
  cases hpc : c.pc with
  | get key hash cur =>
    rw [hpc] at h
    simp only [tick, tickGet] at h
    repeat' split at h
    all_goals cases h
    all_goals exact .nil rfl
  | isEmpty => rw [hpc] at h; cases h
  | iterNew => rw [hpc] at h; cases h; exact .nil rfl
  | iterNext lv out =>
    rw [hpc] at h
    simp only [tick, tickIterNext] at h
    repeat' split at h
    all_goals cases h
    all_goals exact .nil rfl
  | trav st hash mode shift cur parent =>
    rw [hpc] at h hch
    simp only [PCInv, hpc] at hi
    obtain ⟨d, rfl, hat⟩ := hi
    obtain ⟨w, hr, hA, hheld, hok⟩ := x.read hat.loc
    simp only [tick, tickTrav, hr] at h
    split at h
    · split at h
      · cases h
      · refine .of_locs (enterPrune_locs h).1 (by simp [Cont.pairs]) ?_
        intro l hl
        simp only [Cont.pairs, List.map_nil, List.mem_singleton] at hl
        subst hl
        exact hch.2 _ (by simp [PC.locs, PC.pairs])
    · split at h
      · cases h; exact hch
      · next a hp =>
        split at h
        · repeat' split at h
          all_goals first
            | (cases h; exact hch)
            | (simp only [finishTrav] at h; repeat' split at h
               all_goals cases h)
            | cases h
        · next hd =>
          split at h
          · cases h
          · cases h
            obtain ⟨hd16, hh, -, hl'⟩ := x.descend hat.len hok hheld hp (by simpa using hd)
            refine ⟨?_, by
              intro l hl
              simp only [PC.locs, PC.cur, PC.pairs, Option.toList_some, List.map_cons, List.map_nil, List.cons_append, List.nil_append, List.mem_cons,
                List.not_mem_nil, or_false] at hl
              rcases hl with rfl | rfl
              · exact ⟨_, hl'⟩
              · exact ⟨_, hat.loc⟩⟩
            simp only [DepthChain, PC.locs, PC.cur, PC.pairs, Option.toList_some, List.map_cons, List.map_nil, List.cons_append, List.nil_append,
              List.pairwise_cons, List.mem_singleton, forall_eq, List.not_mem_nil, false_implies, implies_true, List.Pairwise.nil, and_true]
            rw [hl'.depth, hat.loc.depth, pre_length _ hat.len, pre_length _ (by omega)]
            omega
  | travCas st hash mode shift cur parent node new kind =>
    rw [hpc] at h hch
    simp only [tick, tickTravCas] at h
    repeat' split at h
    all_goals first
      | (cases h; exact hch)
      | (simp only [finishTrav] at h; repeat' split at h
         all_goals cases h)
      | cases h
  | rem key shift cur levels =>
    rw [hpc] at h hch
    simp only [PCInv, hpc] at hi
    obtain ⟨h1, -, d, rfl, hat⟩ := hi
    obtain ⟨w, hr, hA, hheld, hok⟩ := x.read hat.loc
    simp only [tick, tickRem, hr] at h
    split at h
    · cases h
    · next a hp =>
      split at h
      · split at h
        · cases h
        · refine .of_locs (enterPrune_locs h).1 (by simp [Cont.pairs]) ?_
          intro l hl
          simp only [Cont.pairs, List.map_nil, List.mem_singleton] at hl
          subst hl
          exact hch.2 _ (by simp [PC.locs, PC.pairs])
      · split at h
        · repeat' split at h
          all_goals first
            | (cases h; exact hch)
            | cases h
        · next hd =>
          repeat' split at h
          · cases h
          · cases h
          · cases h
            obtain ⟨hd16, hh, -, hl'⟩ := x.descend hat.len hok hheld hp (by simpa using hd)
            have hlt : m.depth cur < m.depth (.slot a (bitsAt (cfg.hash key) (LEVEL_BITS * d))) := by
              rw [hl'.depth, hat.loc.depth, pre_length _ hat.len, pre_length _ (by omega)]
              omega
            have e : (PC.rem key (LEVEL_BITS * d + LEVEL_BITS) (.slot a (bitsAt (cfg.hash key) (LEVEL_BITS * d))) ((cur, w) :: levels) : PC K P).locs =
              .slot a (bitsAt (cfg.hash key) (LEVEL_BITS * d)) :: (PC.rem key (LEVEL_BITS * d) cur levels : PC K P).locs := rfl
            refine .of_locs e ?_ (by
              intro l hl
              rcases List.mem_cons.mp hl with rfl | hl
              · exact ⟨_, hl'⟩
              · exact hch.2 l hl)
            rw [List.map_cons, List.pairwise_cons]
            refine ⟨?_, hch.1⟩
            intro n hn
            have hch' : ((PC.rem key (LEVEL_BITS * d) cur levels : PC K P).locs.map m.depth).Pairwise (· > ·) := hch.1
            have e2 : (PC.rem key (LEVEL_BITS * d) cur levels : PC K P).locs.map m.depth = m.depth cur :: (levels.map Prod.fst).map m.depth := rfl
            rw [e2] at hn hch'
            rcases List.mem_cons.mp hn with rfl | hn
            · exact hlt
            · have := (List.pairwise_cons.mp hch').1 n hn
              omega
  | remCas key shift cur levels node new deleted =>
    rw [hpc] at h hch
    have hch' : DepthChain m (PC.rem key shift cur levels : PC K P) := hch.1
    have hlo : ∀ l ∈ levels.map Prod.fst, ∃ q, LocAt m c.inv l q := fun l hl => hch.2 l (List.mem_append_right _ hl)
    have hlv : ((levels.map Prod.fst).map m.depth).Pairwise (· > ·) := (List.pairwise_cons.mp hch').2
    simp only [tick, tickRemCas] at h
    repeat' split at h
    all_goals first
      | (cases h; exact hch)
      | (simp only at h; repeat' split at h
         all_goals first
          | exact .of_locs (enterClean_locs h).1 hlv hlo
          | cases h)
      | cases h
  | count deleted ref parent child rest i cnt =>
    rw [hpc] at h hch
    simp only [tick, tickCount] at h
    repeat' split at h
    all_goals first
      | (cases h; exact hch)
      | exact .of_locs (enterPrune_locs h).1 hch.1 hch.2
      | cases h
  | prune parent child i acc k =>
    rw [hpc] at h hch
    simp only [tick, tickPrune] at h
    repeat' split at h
    all_goals first
      | (cases h; exact hch)
      | cases h
  | pruneCas parent child acc k =>
    rw [hpc] at h hch
    have hlv : ((k.pairs.map Prod.fst).map m.depth).Pairwise (· > ·) := (List.pairwise_cons.mp hch.1).2
    simp only [tick, tickPruneCas] at h
    have key : ∀ r, afterPrune r k = .goto pc' ran → ChainOK m c.inv pc' := by
      intro r hr
      rcases afterPrune_cur hr with e | e
      · exact .of_locs e hlv (fun l hl => hch.2 l (List.mem_cons_of_mem _ hl))
      · refine .of_locs e (by simp) ?_
        intro l hl
        simp only [List.mem_singleton] at hl
        subst hl
        exact ⟨[], rfl⟩
    repeat' split at h
    all_goals first
      | exact key _ h
      | cases h

theorem Exec.chain {cfg : Config K P} (E : Exec cfg) (i : Nat) : ∀ t c, ((E.st i).thr t).run = some c → DepthChain (E.st i).m c.pc := by
  induction i with
  | zero => intro t c hc; rw [E.init] at hc; cases hc
  | succ i ih =>
    intro t c hc
    have hevo := (E.stepOK i).evo
    rcases step_run_full (E.step i) hc with ⟨h1, -⟩ | ⟨c0, pc, ran, weak, h1, h2, h3, rfl⟩ | ⟨r, h1, rfl, h2⟩
    · exact (ih t c h1).evo (E.run_pcinv h1) hevo
    · have hch := tick_chain ((E.inv i).ctx h1) (E.run_pcinv h1) ⟨ih t c0 h1, (E.run_pcinv h1).locs_ok⟩ h3
      have hmono : ∀ l ∈ pc.locs, (E.st (i + 1)).m.depth l = (E.st i).m.depth l := by
        intro l hl
        obtain ⟨q, hq⟩ := hch.2 l hl
        exact hq.depth_evo hevo
      simp only [DepthChain]
      rw [List.map_congr_left hmono]
      exact hch.1
    · cases r with
      | op o => cases o <;> simp [DepthChain, PC.locs, startPC, PC.cur, PC.pairs]
      | isEmpty => exact .nil
      | iter => exact .nil

theorem DepthChain.ne_cur {m : Mem P} {pc : PC K P} (h : DepthChain m pc) {cur : Loc} (hc : pc.cur = some cur) {y : Loc × Word} (hy : y ∈ pc.pairs) : y.1 ≠ cur := by
  rw [DepthChain, PC.locs, hc, Option.toList_some, List.cons_append, List.nil_append, List.map_cons, List.pairwise_cons] at h
  intro e
  have := h.1 (m.depth y.1) (List.mem_map.mpr ⟨y.1, List.mem_map.mpr ⟨y, hy, rfl⟩, rfl⟩)
  rw [e] at this
  omega

/-- What a step does to the cells with remembered contents. -/
theorem tick_watch {cfg : Config K P} {A : Nat → AMap K P} {m : Mem P} {weak : Bool} {c : Call K P} (x : Ctx cfg A m c.inv)
    (hi : PCInv cfg A m c) (hch : DepthChain m c.pc) {pc' : PC K P} {ran : Bool} (h : (tick cfg m weak c.pc).2 = .goto pc' ran) (O : Orders) :
    ∀ y ∈ pc'.watch, ((tick cfg m weak c.pc).1 = m ∧ (m.read y.1 = some y.2 ∨ y ∈ c.pc.watch)) ∨
      (y ∈ c.pc.watch ∧ ∀ ord, c.pc.access O ≠ some (y.1, ord)) := by
  cases hpc : c.pc with
  | get key hash cur =>
    rw [hpc] at h
    simp only [tick, tickGet] at h
    repeat' split at h
    all_goals cases h
    all_goals (intro y hy; cases hy)
  | isEmpty => rw [hpc] at h; cases h
  | iterNew => rw [hpc] at h; cases h; intro y hy; cases hy
  | iterNext lv out =>
    rw [hpc] at h
    simp only [tick, tickIterNext] at h
    repeat' split at h
    all_goals cases h
    all_goals (intro y hy; cases hy)
  | trav st hash mode shift cur parent =>
    rw [hpc] at h
    have hm : (tick cfg m weak (.trav st hash mode shift cur parent)).1 = m := rfl
    simp only [PCInv, hpc] at hi
    obtain ⟨d, rfl, hat⟩ := hi
    obtain ⟨w, hr, hA, hheld, hok⟩ := x.read hat.loc
    intro y hy
    refine .inl ⟨rfl, ?_⟩
    simp only [tick, tickTrav, hr] at h
    split at h
    · split at h
      · cases h
      · right
        rw [PC.watch, (enterPrune_locs h).2, enterPrune_pairs h] at hy
        simpa [PC.watch, PC.pendingCas, PC.pairs, Cont.pairs] using hy
    · split at h
      · cases h
        rcases List.mem_cons.mp hy with rfl | hy
        · exact .inl hr
        · exact .inr hy
      · next a hp =>
        split at h
        · repeat' split at h
          all_goals first
            | (cases h
               rcases List.mem_cons.mp hy with rfl | hy
               · exact .inl hr
               · exact .inr hy)
            | (simp only [finishTrav] at h; repeat' split at h
               all_goals cases h)
            | cases h
        · split at h
          · cases h
          · cases h
            simp only [PC.watch, PC.pendingCas, PC.pairs, Option.toList_none, Option.toList_some, List.nil_append, List.mem_singleton] at hy
            subst hy
            exact .inl hr
  | travCas st hash mode shift cur parent node new kind =>
    rw [hpc] at h hch
    intro y hy
    have key : pc' = .trav st hash mode shift cur parent → y ∈ (PC.travCas st hash mode shift cur parent node new kind : PC K P).watch ∧
        ∀ ord, (PC.travCas st hash mode shift cur parent node new kind : PC K P).access O ≠ some (y.1, ord) := by
      rintro rfl
      have hy' : y ∈ (PC.travCas st hash mode shift cur parent node new kind : PC K P).pairs := hy
      refine ⟨List.mem_append_right _ hy', ?_⟩
      intro ord e
      simp only [PC.access, Option.some.injEq, Prod.mk.injEq] at e
      exact hch.ne_cur rfl hy' e.1.symm
    refine .inr (key ?_)
    simp only [tick, tickTravCas] at h
    repeat' split at h
    all_goals first
      | (cases h; rfl)
      | (simp only [finishTrav] at h; repeat' split at h
         all_goals cases h)
      | cases h
  | rem key shift cur levels =>
    rw [hpc] at h
    simp only [PCInv, hpc] at hi
    obtain ⟨h1, -, d, rfl, hat⟩ := hi
    obtain ⟨w, hr, hA, hheld, hok⟩ := x.read hat.loc
    intro y hy
    refine .inl ⟨rfl, ?_⟩
    simp only [tick, tickRem, hr] at h
    split at h
    · cases h
    · next a hp =>
      split at h
      · split at h
        · cases h
        · right
          rw [PC.watch, (enterPrune_locs h).2, enterPrune_pairs h] at hy
          simp only [Option.toList_none, List.nil_append, Cont.pairs, List.mem_singleton] at hy
          subst hy
          simp [PC.watch, PC.pairs]
      · split at h
        · repeat' split at h
          all_goals first
            | (cases h
               rcases List.mem_cons.mp hy with rfl | hy
               · exact .inl hr
               · exact .inr hy)
            | cases h
        · repeat' split at h
          · cases h
          · cases h
          · cases h
            rcases List.mem_cons.mp hy with rfl | hy
            · exact .inl hr
            · exact .inr hy
  | remCas key shift cur levels node new deleted =>
    rw [hpc] at h hch
    intro y hy
    have key : y ∈ levels → y ∈ (PC.remCas key shift cur levels node new deleted : PC K P).watch ∧
        ∀ ord, (PC.remCas key shift cur levels node new deleted : PC K P).access O ≠ some (y.1, ord) := by
      intro hy'
      refine ⟨List.mem_append_right _ hy', ?_⟩
      intro ord e
      simp only [PC.access, Option.some.injEq, Prod.mk.injEq] at e
      exact hch.ne_cur rfl hy' e.1.symm
    refine .inr (key ?_)
    simp only [tick, tickRemCas] at h
    repeat' split at h
    all_goals first
      | (cases h; exact hy)
      | (simp only at h; repeat' split at h
         all_goals first
          | (rw [PC.watch, (enterClean_locs h).2, enterClean_pairs h] at hy; exact hy)
          | cases h)
      | cases h
  | count deleted ref parent child rest i cnt =>
    rw [hpc] at h
    intro y hy
    refine .inl ⟨rfl, .inr ?_⟩
    simp only [tick, tickCount] at h
    repeat' split at h
    all_goals first
      | (cases h; exact hy)
      | (rw [PC.watch, (enterPrune_locs h).2, enterPrune_pairs h] at hy; exact hy)
      | cases h
  | prune parent child i acc k =>
    rw [hpc] at h hch
    simp only [PCInv, hpc] at hi
    obtain ⟨-, a, c', q, h1, h2, h3, h4, -⟩ := hi
    intro y hy
    have key : y ∈ (PC.prune parent child i acc k : PC K P).pairs → y ∈ (PC.prune parent child i acc k : PC K P).watch ∧
        ∀ ord, (PC.prune parent child i acc k : PC K P).access O ≠ some (y.1, ord) := by
      intro hy'
      refine ⟨List.mem_append_right _ hy', ?_⟩
      intro ord e
      simp only [PC.access, h1, Option.map_some, Option.some.injEq, Prod.mk.injEq] at e
      have hd : m.depth (.slot a i) = q.length + 1 := by simp [Mem.depth, h2]
      have hd' := h4.depth
      rw [e.1] at hd
      have hch' : (m.depth parent :: (k.pairs.map Prod.fst).map m.depth).Pairwise (· > ·) := hch
      rcases List.mem_cons.mp hy' with rfl | hy'
      · simp only at hd; omega
      · have := (List.pairwise_cons.mp hch').1 (m.depth y.1) (List.mem_map.mpr ⟨y.1, List.mem_map.mpr ⟨y, hy', rfl⟩, rfl⟩)
        omega
    refine .inr (key ?_)
    simp only [tick, tickPrune] at h
    repeat' split at h
    all_goals first
      | (cases h; exact hy)
      | cases h
  | pruneCas parent child acc k =>
    rw [hpc] at h hch
    intro y hy
    have key : y ∈ k.pairs → y ∈ (PC.pruneCas parent child acc k : PC K P).watch ∧
        ∀ ord, (PC.pruneCas parent child acc k : PC K P).access O ≠ some (y.1, ord) := by
      intro hy'
      refine ⟨List.mem_cons_of_mem _ hy', ?_⟩
      intro ord e
      simp only [PC.access, Option.some.injEq, Prod.mk.injEq] at e
      have hch' : (m.depth parent :: (k.pairs.map Prod.fst).map m.depth).Pairwise (· > ·) := hch
      have := (List.pairwise_cons.mp hch').1 (m.depth y.1) (List.mem_map.mpr ⟨y.1, List.mem_map.mpr ⟨y, hy', rfl⟩, rfl⟩)
      rw [e.1] at this
      omega
    have hap : ∀ r, afterPrune r k = .goto pc' ran → y ∈ k.pairs := by
      intro r hr
      have hp : pc'.pendingCas = none := by
        cases k with
        | trav => cases hr; rfl
        | rem => cases hr; rfl
        | clean d ref rest =>
          simp only [afterPrune] at hr
          split at hr
          · cases hr
          · exact (enterClean_locs hr).2
      rw [PC.watch, hp] at hy
      exact afterPrune_pairs hr y hy
    refine .inr (key ?_)
    simp only [tick, tickPruneCas] at h
    repeat' split at h
    all_goals first
      | exact hap _ h
      | cases h

/-- Between instants `s` and `i`, the contents of cell `l` was changed, by a session other than `t`. -/
def Exec.Disturbed {cfg : Config K P} (E : Exec cfg) (t s i : Nat) (l : Loc) : Prop :=
  ∃ j t' weak w w', s ≤ j ∧ j < i ∧ E.lab j = .tick t' weak ∧ t' ≠ t ∧ (E.st j).m.read l = some w ∧ (E.st (j + 1)).m.read l = some w' ∧ w ≠ w'

theorem Exec.Disturbed.mono {cfg : Config K P} {E : Exec cfg} {t s i i' : Nat} {l : Loc} (h : E.Disturbed t s i l) (hi : i ≤ i') :
    E.Disturbed t s i' l := by
  obtain ⟨j, t', weak, w, w', h1, h2, h3⟩ := h
  exact ⟨j, t', weak, w, w', h1, by omega, h3⟩

theorem PCInv.watch_loc {cfg : Config K P} {A : Nat → AMap K P} {m : Mem P} {c : Call K P} (hi : PCInv cfg A m c) {y : Loc × Word}
    (hy : y ∈ c.pc.watch) : ∃ q, LocAt m c.inv y.1 q := by
  rcases List.mem_append.mp hy with h | h
  · have h' : c.pc.pendingCas = some y := by simpa using h
    refine hi.cur_ok ?_
    cases hpc : c.pc <;> rw [hpc] at h' <;> simp only [PC.pendingCas, Option.some.injEq, reduceCtorEq] at h' <;> subst h' <;> rfl
  · exact hi.locs_ok _ (List.mem_append_right _ (List.mem_map.mpr ⟨y, h, rfl⟩))

/-- A cell whose contents is remembered still has it, or somebody else has changed it in the meantime. -/
theorem Exec.watched {cfg : Config K P} (E : Exec cfg) (i : Nat) : ∀ t c, ((E.st i).thr t).run = some c →
    ∀ y ∈ c.pc.watch, (E.st i).m.read y.1 = some y.2 ∨ E.Disturbed t c.inv i y.1 := by
  induction i with
  | zero => intro t c hc; rw [E.init] at hc; cases hc
  | succ i ih =>
    intro t c hc y hy
    obtain ⟨q, hq⟩ := (E.run_pcinv hc).watch_loc hy
    obtain ⟨w', hr', -⟩ := ((E.inv (i + 1)).ctx hc).read hq
    rcases step_run_full (E.step i) hc with ⟨h1, h2⟩ | ⟨c0, pc, ran, weak, h1, h2, h3, rfl⟩ | ⟨r, h1, rfl, h2⟩
    · rcases ih t c h1 y hy with h | h
      · by_cases e : y.2 = w'
        · left; rw [hr', e]
        · obtain ⟨t', weak, c', ord, g1, g2, g3⟩ := E.cell_changed h hr' e .code
          refine .inr ⟨i, t', weak, y.2, w', ?_, by omega, g1, ?_, h, hr', e⟩
          · have := (E.run_inv i h1).1; omega
          · rintro rfl; exact h2 weak g1
      · exact .inr (h.mono (by omega))
    · have hst : ∀ l w, (tick cfg (E.st i).m weak c0.pc).1.read l = some w → (E.st (i + 1)).m.read l = some w := by
        intro l w hw
        have hs := E.step i
        rw [h2] at hs
        simp only [Contrie.step, h1, Option.some.injEq, Prod.mk.injEq] at hs
        rw [← hs.1]
        cases l <;> exact hw
      rcases tick_watch ((E.inv i).ctx h1) (E.run_pcinv h1) (E.chain i t c0 h1) h3 .code y hy with ⟨g1, g2⟩ | ⟨g1, g2⟩
      · rcases g2 with g2 | g2
        · left; exact hst _ _ (by rw [g1]; exact g2)
        · rcases ih t c0 h1 y g2 with h | h
          · left; exact hst _ _ (by rw [g1]; exact h)
          · exact .inr (h.mono (by omega))
      · rcases ih t c0 h1 y g1 with h | h
        · left; exact hst _ _ (tick_read ((E.inv i).mem.fresh _ (Nat.le_refl _)) h g2)
        · exact .inr (h.mono (by omega))
    · cases r with
      | op o => cases o <;> cases hy
      | isEmpty => cases hy
      | iter => cases hy

end Contrie
