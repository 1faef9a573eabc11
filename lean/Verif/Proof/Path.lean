import Verif.Props.Memory
import Verif.Model.Weak
/-
Where in the trie a call works: all the inner nodes it remembers lie on the hash path of its key.
-/
set_option linter.unusedSectionVars false
namespace Contrie
variable {K P : Type} [DecidableEq K]

/-- The levels remembered for after `prune`. -/
def Cont.pairs : Cont K P → List (Loc × Word)
  | .clean _ _ rest => rest
  | _ => []

/-- The (parent cell, inner node) pairs a call remembers. -/
def PC.pairs : PC K P → List (Loc × Word)
  | .trav _ _ _ _ _ parent => parent.toList
  | .travCas _ _ _ _ _ parent _ _ _ => parent.toList
  | .rem _ _ _ levels => levels
  | .remCas _ _ _ levels _ _ _ => levels
  | .count _ _ parent child rest _ _ => (parent, child) :: rest
  | .prune parent child _ _ k => (parent, child) :: k.pairs
  | .pruneCas parent child _ k => (parent, child) :: k.pairs
  | _ => []

/-- The word points to an inner node on the hash path of `k`. -/
def OnPath (cfg : Config K P) (m : Mem P) (k : K) (w : Word) : Prop :=
  ∃ a c q, w.ptr = some a ∧ m.mem a = some (.inner c q) ∧ q <+: nibs (cfg.hash k)

theorem OnPath.evo {cfg : Config K P} {m m' : Mem P} {k : K} {w : Word} (h : OnPath cfg m k w) (he : Evo m m') : OnPath cfg m' k w := by
  obtain ⟨a, c, q, h1, h2, h3⟩ := h
  obtain ⟨c', hc', -⟩ := he.inner a c q h2
  exact ⟨a, c', q, h1, hc', h3⟩

theorem enterPrune_pairs {p : Loc} {ch : Word} {k : Cont K P} {pc : PC K P} {ran : Bool} (h : enterPrune p ch k = .goto pc ran) :
    pc.pairs = (p, ch) :: k.pairs := by
  simp only [enterPrune] at h
  repeat' split at h
  all_goals cases h
  rfl

theorem enterClean_pairs {d : P} {r : Nat} {l : List (Loc × Word)} {pc : PC K P} {ran : Bool}
    (h : (enterClean d r l : Next K P) = .goto pc ran) : pc.pairs = l := by
  cases l with
  | nil => cases h
  | cons x l =>
    obtain ⟨p, ch⟩ := x
    simp only [enterClean] at h
    split at h <;> cases h
    rfl

theorem afterPrune_pairs {r : PruneResult} {k : Cont K P} {pc : PC K P} {ran : Bool} (h : afterPrune r k = .goto pc ran) :
    ∀ x ∈ pc.pairs, x ∈ k.pairs := by
  cases k with
  | trav st hash mode => cases h; intro x hx; cases hx
  | rem key => cases h; intro x hx; cases hx
  | clean d ref rest =>
    simp only [afterPrune] at h
    split at h
    · cases h
    · rw [enterClean_pairs h]; exact fun x hx => hx

/-- The key of a traversal. -/
theorem TravReq.key {cfg : Config K P} {r : Req K P} {mode : Mode} {st : TState K P} {n : Nat} (h : TravReq cfg r mode st n) :
    ∃ o, r = .op o ∧ o.key cfg.key = st.key cfg := by
  cases h with
  | ins p => exact ⟨_, rfl, rfl⟩
  | fut k f wf => exact ⟨_, rfl, rfl⟩
  | made k f wf => exact ⟨_, rfl, wf.symm⟩

/-- What a step adds to the remembered pairs. -/
theorem tick_pairs {cfg : Config K P} {A : Nat → AMap K P} {m : Mem P} {weak : Bool} {c : Call K P} (x : Ctx cfg A m c.inv)
    (hi : PCInv cfg A m c) {o : Op K P} (ho : c.req = .op o) (hold : ∀ y ∈ c.pc.pairs, OnPath cfg m (o.key cfg.key) y.2)
    {pc' : PC K P} {ran : Bool} (h : (tick cfg m weak c.pc).2 = .goto pc' ran) : ∀ y ∈ pc'.pairs, OnPath cfg m (o.key cfg.key) y.2 := by
  cases hpc : c.pc with
  | get key hash cur =>
    rw [hpc] at h
    simp only [tick, tickGet] at h
    repeat' split at h
    all_goals cases h
    all_goals (intro y hy; cases hy)
  | isEmpty => rw [hpc] at h; cases h
  | iterNew => rw [hpc] at h; cases h; intro y hy; cases hy
  | iterNext lv out =>
    rw [hpc] at h
    simp only [tick, tickIterNext] at h
    repeat' split at h
    all_goals cases h
    all_goals (intro y hy; cases hy)
  | trav st hash mode shift cur parent =>
    rw [hpc] at h hold
    simp only [PCInv, hpc] at hi
    obtain ⟨d, rfl, hat⟩ := hi
    obtain ⟨w, hr, hA, hheld, hok⟩ := x.read hat.loc
    obtain ⟨o', ho', hk⟩ := hat.req.key
    rw [ho] at ho'; cases ho'
    have hkey : pre hash d <+: nibs (cfg.hash (o.key cfg.key)) := by rw [hk, hat.hashEq]; exact pre_prefix _ _
    simp only [tick, tickTrav, hr] at h
    split at h
    · split at h
      · cases h
      · next p ch =>
        rw [enterPrune_pairs h]
        exact hold
    · split at h
      · cases h; exact hold
      · next a hp =>
        split at h
        · repeat' split at h
          all_goals first
            | (cases h; exact hold)
            | (simp only [finishTrav] at h; repeat' split at h
               all_goals cases h)
            | cases h
        · next hd =>
          split at h
          · cases h
          · cases h
            intro y hy
            simp only [PC.pairs, Option.toList_some, List.mem_singleton] at hy
            subst hy
            obtain ⟨c', hc'⟩ := hok.of_inner hp (by simpa using hd)
            exact ⟨a, c', _, hp, hc', hkey⟩
  | travCas st hash mode shift cur parent node new kind =>
    rw [hpc] at h hold
    simp only [tick, tickTravCas] at h
    repeat' split at h
    all_goals first
      | (cases h; exact hold)
      | (simp only [finishTrav] at h; repeat' split at h
         all_goals cases h)
      | cases h
  | rem key shift cur levels =>
    rw [hpc] at h hold
    simp only [PCInv, hpc] at hi
    obtain ⟨h1, -, d, rfl, hat⟩ := hi
    rw [ho] at h1; cases h1
    obtain ⟨w, hr, hA, hheld, hok⟩ := x.read hat.loc
    simp only [tick, tickRem, hr] at h
    split at h
    · cases h
    · next a hp =>
      split at h
      · split at h
        · cases h
        · rw [enterPrune_pairs h]
          intro y hy
          simp only [Cont.pairs, List.mem_singleton] at hy
          subst hy
          exact hold _ (by simp [PC.pairs])
      · split at h
        · repeat' split at h
          all_goals first
            | (cases h; exact hold)
            | cases h
        · next hd =>
          repeat' split at h
          · cases h
          · cases h
          · cases h
            intro y hy
            rcases List.mem_cons.mp hy with rfl | hy
            · obtain ⟨c', hc'⟩ := hok.of_inner hp (by simpa using hd)
              exact ⟨a, c', _, hp, hc', pre_prefix _ _⟩
            · exact hold y hy
  | remCas key shift cur levels node new deleted =>
    rw [hpc] at h hold
    simp only [tick, tickRemCas] at h
    repeat' split at h
    all_goals first
      | (cases h; exact hold)
      | (simp only at h; repeat' split at h
         all_goals first
          | (rw [enterClean_pairs h]; exact hold)
          | cases h)
      | cases h
  | count deleted ref parent child rest i cnt =>
    rw [hpc] at h hold
    simp only [tick, tickCount] at h
    repeat' split at h
    all_goals first
      | (cases h; exact hold)
      | (rw [enterPrune_pairs h]; exact hold)
      | cases h
  | prune parent child i acc k =>
    rw [hpc] at h hold
    simp only [tick, tickPrune] at h
    repeat' split at h
    all_goals first
      | (cases h; exact hold)
      | cases h
  | pruneCas parent child acc k =>
    rw [hpc] at h hold
    simp only [tick, tickPruneCas] at h
    have key : ∀ r, afterPrune r k = .goto pc' ran → ∀ y ∈ pc'.pairs, OnPath cfg m (o.key cfg.key) y.2 :=
      fun r hr y hy => hold y (List.mem_cons_of_mem _ (afterPrune_pairs hr y hy))
    repeat' split at h
    all_goals first
      | exact key _ h
      | cases h

/-- All remembered nodes lie on the path. -/
theorem Exec.pairs_path {cfg : Config K P} (E : Exec cfg) (i : Nat) : ∀ t c o, ((E.st i).thr t).run = some c → c.req = .op o →
    ∀ y ∈ c.pc.pairs, OnPath cfg (E.st i).m (o.key cfg.key) y.2 := by
  induction i with
  | zero => intro t c o hc; rw [E.init] at hc; cases hc
  | succ i ih =>
    intro t c o hc ho y hy
    have hevo := (E.stepOK i).evo
    rcases step_run_full (E.step i) hc with ⟨h1, -⟩ | ⟨c0, pc, ran, weak, h1, h2, h3, rfl⟩ | ⟨r, h1, rfl, h2⟩
    · exact (ih t c o h1 ho y hy).evo hevo
    · exact (tick_pairs ((E.inv i).ctx h1) (E.run_pcinv h1) ho (ih t c0 o h1 ho) h3 y hy).evo hevo
    · simp only at ho
      subst ho
      cases o <;> cases hy

/-! ### Which cell a step can change -/

theorem read_write_other {m : Mem P} {w : Word} {l l' : Loc} (h : l ≠ l') : (m.write w l').read l = m.read l := by
  cases l' with
  | root =>
    cases l with
    | root => exact absurd rfl h
    | slot a i => rfl
  | slot a' i' =>
    simp only [Mem.write]
    cases l with
    | root => split <;> rfl
    | slot a i =>
      split
      · next cells path hm =>
        by_cases e : a = a'
        · subst e
          have hi : i ≠ i' := fun e => h (by rw [e])
          simp only [Mem.read, Mem.deref, upd_same, hm]
          cases m.freed a with
          | true => rfl
          | false => simp [upd_other _ _ hi]
        · simp [Mem.read, Mem.deref, upd_other _ _ e]
      · rfl

theorem read_alloc_old {m : Mem P} (hn : m.mem m.next = none) {nd : Node P} {l : Loc} {w : Word} (h : m.read l = some w) :
    (m.alloc nd).read l = some w := by
  cases l with
  | root => exact h
  | slot a i =>
    have : a ≠ m.next := by
      rintro rfl
      simp only [Mem.read, Mem.deref, hn] at h
      split at h <;> simp_all
    simp only [Mem.read, Mem.deref, Mem.alloc, upd_other _ _ this] at h ⊢
    exact h

theorem read_retire_same (m : Mem P) (a : Nat) (l : Loc) : (m.retire a).read l = m.read l := by cases l <;> rfl

/-- A step changes the cell it accesses only. -/
theorem tick_read {cfg : Config K P} {m : Mem P} (hn : m.mem m.next = none) {weak : Bool} {pc : PC K P} {O : Orders} {l : Loc} {w : Word}
    (h : m.read l = some w) (ha : ∀ ord, pc.access O ≠ some (l, ord)) : (tick cfg m weak pc).1.read l = some w := by
  have hw : ∀ nd w' l', l ≠ l' → ((m.alloc nd).write w' l').read l = some w := fun nd w' l' hl => by rw [read_write_other hl, read_alloc_old hn h]
  have hw' : ∀ w' l', l ≠ l' → (m.write w' l').read l = some w := fun w' l' hl => by rw [read_write_other hl, h]
  cases pc with
  | travCas st hash mode shift cur parent node new kind =>
    have hl : l ≠ cur := by rintro rfl; exact ha _ rfl
    simp only [tick, tickTravCas]
    repeat' split
    all_goals simp only [read_retire_same]
    all_goals first
      | exact h
      | exact hw _ _ _ hl
  | remCas key shift cur levels node new deleted =>
    have hl : l ≠ cur := by rintro rfl; exact ha _ rfl
    simp only [tick, tickRemCas]
    repeat' split
    all_goals simp only [read_retire_same]
    all_goals first
      | exact h
      | exact hw _ _ _ hl
      | exact hw' _ _ hl
  | prune parent child i acc k =>
    simp only [tick, tickPrune]
    cases hp : child.ptr with
    | none => exact h
    | some a =>
      have hl : l ≠ .slot a i := by rintro rfl; exact ha O.mark (by simp [PC.access, hp])
      simp only
      cases m.read (.slot a i) with
      | none => exact h
      | some gc =>
        simp only
        repeat' split
        all_goals exact hw' _ _ hl
  | pruneCas parent child acc k =>
    have hl : l ≠ parent := by rintro rfl; exact ha _ rfl
    simp only [tick, tickPruneCas]
    repeat' split
    all_goals simp only [read_retire_same]
    all_goals first
      | exact h
      | exact hw _ _ _ hl
      | exact hw' _ _ hl
  | _ => exact h

/-- Where the change of a cell comes from. -/
theorem Exec.cell_changed {cfg : Config K P} (E : Exec cfg) {i : Nat} {l : Loc} {w w' : Word} (h : (E.st i).m.read l = some w)
    (h' : (E.st (i + 1)).m.read l = some w') (hne : w ≠ w') (O : Orders) :
    ∃ t weak c ord, E.lab i = .tick t weak ∧ ((E.st i).thr t).run = some c ∧ c.pc.access O = some (l, ord) := by
  have hs := E.step i
  have other : (∀ w, (E.st (i + 1)).m.read l = some w → (E.st i).m.read l = some w) → False := by
    intro hk
    have := hk _ h'
    rw [h] at this; cases this; exact hne rfl
  have same : ∀ {m : Mem P}, m = (E.st (i + 1)).m → m.root = (E.st i).m.root → m.mem = (E.st i).m.mem → m.freed = (E.st i).m.freed → False := by
    intro m e h1 h2 h3
    apply other
    intro w hw
    rw [← e] at hw
    cases l with
    | root => simpa [Mem.read, h1] using hw
    | slot a j => simpa [Mem.read, Mem.deref, h2, h3] using hw
  cases hl : E.lab i with
  | tick t weak =>
    rw [hl] at hs
    simp only [Contrie.step] at hs
    split at hs
    · cases hs
    · next c hc =>
      simp only [Option.some.injEq, Prod.mk.injEq] at hs
      refine ⟨t, weak, c, ?_⟩
      apply Classical.byContradiction
      intro hno
      have hr := tick_read (cfg := cfg) (weak := weak) (pc := c.pc) (O := O) ((E.inv i).mem.fresh _ (Nat.le_refl _)) h
        (fun ord e => hno ⟨ord, rfl, hc, e⟩)
      apply hne
      have e : (E.st (i + 1)).m.read l = some w := by
        rw [← hs.1]
        cases l with
        | root => exact hr
        | slot a j => exact hr
      rw [h'] at e; cases e; rfl
  | pin t =>
    rw [hl] at hs
    simp only [Contrie.step] at hs
    split at hs <;> simp only [Option.some.injEq, Prod.mk.injEq, reduceCtorEq] at hs
    exact (same (congrArg State.m hs.1) rfl rfl rfl).elim
  | unpin t =>
    rw [hl] at hs
    simp only [Contrie.step] at hs
    split at hs <;> simp only [Option.some.injEq, Prod.mk.injEq, reduceCtorEq] at hs
    exact (same (congrArg State.m hs.1) rfl rfl rfl).elim
  | call t r =>
    rw [hl] at hs
    simp only [Contrie.step] at hs
    split at hs <;> simp only [Option.some.injEq, Prod.mk.injEq, reduceCtorEq] at hs
    exact (same (congrArg State.m hs.1) rfl rfl rfl).elim
  | abort t =>
    rw [hl] at hs
    simp only [Contrie.step] at hs
    split at hs <;> simp only [Option.some.injEq, Prod.mk.injEq, reduceCtorEq] at hs
    exact (same (congrArg State.m hs.1) rfl rfl rfl).elim
  | idle =>
    rw [hl] at hs
    simp only [Contrie.step, Option.some.injEq, Prod.mk.injEq] at hs
    exact (same (congrArg State.m hs.1) rfl rfl rfl).elim
  | free b =>
    rw [hl] at hs
    simp only [Contrie.step, Option.some.injEq, Prod.mk.injEq] at hs
    exfalso
    apply other
    intro w hw
    rw [← hs.1] at hw
    cases l with
    | root => exact hw
    | slot a j =>
      simp only [Mem.read, Mem.deref, Mem.bump] at hw ⊢
      by_cases e : a = b
      · subst e; simp at hw
      · simpa [upd_other _ _ e] using hw

end Contrie
