import Verif.Proof.Retry
import Verif.Props.Path
/-
C53: an operation repeats work only if there is a reason for it, and the reason is another operation that got something done.
-/
set_option linter.unusedSectionVars false
namespace Contrie
variable {K P : Type} [DecidableEq K] {cfg : Config K P}

/-- Cell `l` was changed between instants `s` and `i`, in a step of an insertion, `get_or_insert_with` or removal `o` that ran in a session
other than `t`; if the cell is a cell of an inner node, then the node lies on the hash path of the key of `o`. -/
def Exec.ChangedBy (E : Exec cfg) (t s i : Nat) (l : Loc) (o : Op K P) : Prop :=
  ∃ j t' weak c w w', s ≤ j ∧ j < i ∧ t' ≠ t ∧ E.lab j = .tick t' weak ∧ E.Running j t' c ∧ c.req = .op o ∧ c.req.isUpdate = true ∧
    (E.st j).m.read l = some w ∧ (E.st (j + 1)).m.read l = some w' ∧ w ≠ w' ∧
    ∀ a n, l = .slot a n → ∃ q, HashStarts cfg q (o.key cfg.key) ∧ ∃ τ, τ ≤ j ∧ HangsAt (E.st τ).m a q

/-- A compare-and-set is on one of the remembered pairs. -/
theorem PC.cas_watch {pc : PC K P} {x : Loc × Word} (h : pc.cas = some x) : x ∈ pc.watch := by
  cases pc <;> simp only [PC.cas, Option.some.injEq, reduceCtorEq] at h <;> subst h <;> simp [PC.watch, PC.pendingCas, PC.pairs]

theorem Exec.Disturbed.by {E : Exec cfg} {t s i : Nat} {l : Loc} (h : E.Disturbed t s i l) : ∃ o, E.ChangedBy t s i l o := by
  obtain ⟨j, t', weak, w, w', h1, h2, h3, h4, h5, h6, h7⟩ := h
  obtain ⟨t2, weak2, c, g1, g2, g3⟩ : ∃ t2 weak2 c, E.lab j = .tick t2 weak2 ∧ E.Running j t2 c ∧
      ∃ o, c.req = .op o ∧ c.req.isUpdate = true ∧ ∀ a n, l = .slot a n → ∃ q, HashStarts cfg q (o.key cfg.key) ∧ ∃ τ, τ ≤ j ∧ HangsAt (E.st τ).m a q := by
    obtain ⟨t2, weak2, c, o, e1, e2, e3, e4⟩ := E.updater_of_change h5 h6 h7
    refine ⟨t2, weak2, c, e1, e2, o, e3, e4, ?_⟩
    rintro a n rfl
    obtain ⟨t3, weak3, c3, o3, f1, f2, f3, -, f5⟩ := C51_writes_on_path E h5 h6 h7
    rw [e1] at f1; cases f1
    rw [Exec.Running, f2] at e2; cases e2
    rw [f3] at e3; cases e3
    exact f5
  obtain ⟨o, g4, g5, g6⟩ := g3
  rw [h3] at g1; cases g1
  exact ⟨o, j, t', weak, c, w, w', h1, h2, h4, h3, g2, g4, g5, h5, h6, h7, g6⟩

/-- **C53.** When the compare-and-set of a call finds another word than the one it expects, the cell was changed, after the call began, by
another session's insertion, `get_or_insert_with` or removal whose key has the hash path of the cell. So an update never loses against a lookup
or an iteration, against itself, or against an update of a part of the trie it does not share. -/
theorem C53_retry_has_reason (E : Exec cfg) {i t : Nat} {c : Call K P} (hc : E.Running i t c) {loc : Loc} {expected : Word}
    (hcas : c.pc.cas = some (loc, expected)) (hne : (E.st i).m.read loc ≠ some expected) : ∃ o, E.ChangedBy t c.inv i loc o := by
  rcases E.watched i t c hc _ (PC.cas_watch hcas) with h | h
  · exact absurd h hne
  · exact h.by

/-- **C53**, disjoint updates do not disturb each other: if the updates of the other sessions during the call all have keys whose hashes differ from
that of `k` within the first `d` groups of bits, the compare-and-set at a cell at depth `d` or deeper (below the node at position `q`, `d ≤ q.length`)
finds what it expects. -/
theorem C53_disjoint_undisturbed (E : Exec cfg) {i t : Nat} {c : Call K P} (hc : E.Running i t c) {o : Op K P} (ho : c.req = .op o)
    {a : Nat} {n : Fin 16} {expected : Word} (hcas : c.pc.cas = some (.slot a n, expected)) {q : List (Fin 16)} {τ : Nat} (hτ : τ ≤ i)
    (hl : HangsAt (E.st τ).m a q)
    (hdis : ∀ j t' weak c' o', c.inv ≤ j → j < i → t' ≠ t → E.lab j = .tick t' weak → E.Running j t' c' → c'.req = .op o' → c'.req.isUpdate = true →
      ∃ d, d < q.length ∧ bitsAt (cfg.hash (o.key cfg.key)) (LEVEL_BITS * d) ≠ bitsAt (cfg.hash (o'.key cfg.key)) (LEVEL_BITS * d)) :
    (E.st i).m.read (.slot a n) = some expected := by
  by_cases hne : (E.st i).m.read (.slot a n) = some expected
  · exact hne
  · exfalso
    obtain ⟨o', j, t', weak, c', w, w', h1, h2, h3, h4, h5, h6, h7, h8, h9, h10, h11⟩ := C53_retry_has_reason E hc hcas hne
    obtain ⟨d, hd, hb⟩ := hdis j t' weak c' o' h1 h2 h3 h4 h5 h6 h7
    obtain ⟨q', g1, τ', g2, g3⟩ := h11 a n rfl
    obtain ⟨q2, f1, τ2, f2, f3⟩ : ∃ q, HashStarts cfg q (o.key cfg.key) ∧ ∃ τ, τ ≤ i ∧ HangsAt (E.st τ).m a q := by
      have : ∃ ord, c.pc.access .code = some (.slot a n, ord) := by
        cases hpc : c.pc <;> rw [hpc] at hcas <;> simp only [PC.cas, Option.some.injEq, Prod.mk.injEq, reduceCtorEq] at hcas <;>
          exact ⟨_, by simp only [PC.access, hcas.1]; rfl⟩
      obtain ⟨ord, hacc⟩ := this
      exact C51_path_only E hc ho hacc
    have hm1 := E.inner_of_slot h8
    obtain ⟨c1, p1, hm1⟩ := hm1
    obtain ⟨c2, hm2⟩ := E.inner_keep hm1 (Nat.le_of_lt h2)
    have e1 := E.place hm2 hm2 hτ f2 hl f3
    have e2 := E.place hm2 hm1 hτ g2 hl g3
    subst e1 e2
    exact hb ((f1.2 d hd).symm.trans (g1.2 d hd))

/-- Is the call clearing away an inner node it has met on its search? (Not: one it has itself taken the last-but-one element out of.) -/
def PC.helps : PC K P → Bool
  | .prune _ _ _ _ k => match k with
    | .clean .. => false
    | _ => true
  | .pruneCas _ _ _ k => match k with
    | .clean .. => false
    | _ => true
  | _ => false

/-- Between instants `s` and `i`, the call that session `t` began at `s` read a condemned word. -/
def Exec.MetCondemned (E : Exec cfg) (t s i : Nat) : Prop :=
  ∃ j weak c l ord w, s ≤ j ∧ j < i ∧ E.lab j = .tick t weak ∧ E.Running j t c ∧ c.inv = s ∧ c.pc.access .code = some (l, ord) ∧
    (E.st j).m.read l = some w ∧ w.cond = true

theorem finishTrav_not_goto {mode : Mode} {r : Option (ExistingOrNew P)} {refs : List Nat} {pc : PC K P} {ran : Bool}
    (h : finishTrav mode r refs = .goto pc ran) : False := by
  unfold finishTrav at h; repeat' split at h
  all_goals cases h

theorem enterClean_helps {d : P} {r : Nat} {l : List (Loc × Word)} {pc : PC K P} {ran : Bool}
    (h : enterClean d r l = .goto pc ran) : pc.helps = false := by
  unfold enterClean at h; repeat' split at h
  all_goals (cases h; try rfl)

theorem afterPrune_helps {r : PruneResult} {k : Cont K P} {pc : PC K P} {ran : Bool} (h : afterPrune r k = .goto pc ran) : pc.helps = false := by
  unfold afterPrune at h
  split at h
  · cases h; rfl
  · cases h; rfl
  · split at h
    · cases h
    · exact enterClean_helps h

theorem enterPrune_clean_helps {p : Loc} {ch : Word} {d : P} {r : Nat} {l : List (Loc × Word)} {pc : PC K P} {ran : Bool}
    (h : enterPrune p ch (.clean d r l) = .goto pc ran) : pc.helps = false := by
  unfold enterPrune at h; repeat' split at h
  all_goals (cases h; try rfl)

theorem tick_helps_reason {m : Mem P} {weak : Bool} {pc pc' : PC K P} {ran : Bool} (h : (tick cfg m weak pc).2 = .goto pc' ran) (hh : pc'.helps = true) :
    pc.helps = true ∨ ∃ l ord w, pc.access .code = some (l, ord) ∧ m.read l = some w ∧ w.cond = true := by
  cases pc with
  | trav st hash mode shift cur parent =>
    right
    simp only [tick, tickTrav] at h
    split at h
    · cases h
    · next w hw =>
      refine ⟨cur, _, w, rfl, hw, ?_⟩
      cases hc : w.cond with
      | true => rfl
      | false =>
        exfalso
        simp only [hc, Bool.false_eq_true, ↓reduceIte] at h
        repeat' split at h
        all_goals first
          | exact finishTrav_not_goto h
          | (cases h; done)
          | (cases h; cases hh)
  | rem key shift cur levels =>
    right
    simp only [tick, tickRem] at h
    split at h
    · cases h
    · next w hw =>
      refine ⟨cur, _, w, rfl, hw, ?_⟩
      cases hc : w.cond with
      | true => rfl
      | false =>
        exfalso
        simp only [hc, Bool.false_eq_true, ↓reduceIte] at h
        repeat' split at h
        all_goals first
          | (cases h; done)
          | (cases h; cases hh)
  | prune parent child i acc k =>
    left
    simp only [tick, tickPrune] at h
    repeat' split at h
    all_goals first
      | (cases h; done)
      | (cases h; exact hh)
  | pruneCas parent child acc k =>
    exfalso
    simp only [tick, tickPruneCas] at h
    repeat' split at h
    all_goals first
      | (cases h; done)
      | (rw [afterPrune_helps h] at hh; cases hh)
  | count deleted ref parent child rest i cnt =>
    exfalso
    simp only [tick, tickCount] at h
    repeat' split at h
    all_goals first
      | (rw [enterPrune_clean_helps h] at hh; cases hh)
      | (cases h; done)
      | (cases h; cases hh)
  | remCas key shift cur levels node new deleted =>
    exfalso
    simp only [tick, tickRemCas] at h
    repeat' split at h
    all_goals first
      | (rw [enterClean_helps h] at hh; cases hh)
      | (cases h; done)
      | (cases h; cases hh)
  | travCas st hash mode shift cur parent node new kind =>
    exfalso
    simp only [tick, tickTravCas] at h
    repeat' split at h
    all_goals first
      | exact finishTrav_not_goto h
      | (cases h; done)
      | (cases h; cases hh)
  | get key hash cur =>
    exfalso
    simp only [tick, tickGet] at h
    repeat' split at h
    all_goals first
      | (cases h; done)
      | (cases h; cases hh)
  | isEmpty => cases h
  | iterNew => exfalso; cases h; cases hh
  | iterNext levels out =>
    exfalso
    simp only [tick, tickIterNext] at h
    repeat' split at h
    all_goals first
      | (cases h; done)
      | (cases h; cases hh)

/-- **C53**, helping: a call clears away an inner node it came across on its search only after it has read a condemned word there. -/
theorem C53_help_has_reason (E : Exec cfg) {i t : Nat} {c : Call K P} (hc : E.Running i t c) (hh : c.pc.helps = true) : E.MetCondemned t c.inv i := by
  induction i generalizing c with
  | zero => rw [Exec.Running, E.init] at hc; cases hc
  | succ i ih =>
    rcases step_run_full (E.step i) hc with ⟨h1, -⟩ | ⟨c0, pc, ran, weak, h1, h2, h3, rfl⟩ | ⟨r, -, rfl, -⟩
    · obtain ⟨j, weak, c', l, ord, w, g1, g2, g3⟩ := ih h1 hh
      exact ⟨j, weak, c', l, ord, w, g1, by omega, g3⟩
    · rcases tick_helps_reason h3 hh with h | ⟨l, ord, w, g1, g2, g3⟩
      · obtain ⟨j, weak, c', l, ord, w, g1, g2, g3⟩ := ih h1 h
        exact ⟨j, weak, c', l, ord, w, g1, by omega, g3⟩
      · exact ⟨i, weak, c0, l, ord, w, Nat.le_of_lt (E.run_inv i h1).1, by omega, h2, h1, rfl, g1, g2, g3⟩
    · cases r with
      | op o => cases o <;> cases hh
      | isEmpty => cases hh
      | iter => cases hh

/-- **C53**, starting over: an update that has left the root comes back to the root only after it has read a condemned word (it then has helped to
clear the node away, whatever came out of it). After a failed compare-and-set it goes on right where it was. -/
theorem C53_restart_has_reason (E : Exec cfg) {i t : Nat} {c c' : Call K P} (hc : E.Running i t c) (hc' : E.Running (i + 1) t c') (hsame : c'.inv = c.inv)
    (hn : c.pc.cur ≠ some .root) (hn' : c'.pc.cur = some .root) : E.MetCondemned t c.inv i := by
  rcases step_run_full (E.step i) hc' with ⟨h1, -⟩ | ⟨c0, pc, ran, weak, h1, h2, h3, rfl⟩ | ⟨r, -, rfl, h1⟩
  · rw [Exec.Running, h1] at hc; cases hc; exact absurd hn' hn
  · rw [Exec.Running, h1] at hc; cases hc
    refine C53_help_has_reason E h1 ?_
    simp only at hn'
    cases hpc : c.pc with
    | trav st hash mode shift cur parent =>
      exfalso
      rw [hpc] at h3 hn
      simp only [tick, tickTrav, enterPrune] at h3
      repeat' split at h3
      all_goals first
        | exact finishTrav_not_goto h3
        | (cases h3; done)
        | (cases h3; first | exact hn hn' | cases hn')
    | travCas st hash mode shift cur parent node new kind =>
      exfalso
      rw [hpc] at h3 hn
      simp only [tick, tickTravCas] at h3
      repeat' split at h3
      all_goals first
        | exact finishTrav_not_goto h3
        | (cases h3; done)
        | (cases h3; first | exact hn hn' | cases hn')
    | rem key shift cur levels =>
      exfalso
      rw [hpc] at h3 hn
      simp only [tick, tickRem, enterPrune] at h3
      repeat' split at h3
      all_goals first
        | (cases h3; done)
        | (cases h3; first | exact hn hn' | cases hn')
    | remCas key shift cur levels node new deleted =>
      exfalso
      rw [hpc] at h3 hn
      simp only [tick, tickRemCas, enterClean] at h3
      repeat' split at h3
      all_goals first
        | (cases h3; done)
        | (cases h3; first | exact hn hn' | cases hn')
    | prune parent child i' acc k =>
      exfalso
      rw [hpc] at h3
      simp only [tick, tickPrune] at h3
      repeat' split at h3
      all_goals first
        | (cases h3; done)
        | (cases h3; cases hn')
    | pruneCas parent child acc k =>
      cases k with
      | clean d r rest =>
        exfalso
        rw [hpc] at h3
        simp only [tick, tickPruneCas, afterPrune, enterClean] at h3
        repeat' split at h3
        all_goals first
          | (cases h3; done)
          | (cases h3; cases hn')
      | _ => rfl
    | count deleted ref parent child rest i' cnt =>
      exfalso
      rw [hpc] at h3
      simp only [tick, tickCount, enterPrune] at h3
      repeat' split at h3
      all_goals first
        | (cases h3; done)
        | (cases h3; cases hn')
    | get key hash cur =>
      exfalso
      rw [hpc] at h3
      simp only [tick, tickGet] at h3
      repeat' split at h3
      all_goals first
        | (cases h3; done)
        | (cases h3; cases hn')
    | isEmpty => rw [hpc] at h3; cases h3
    | iterNew => exfalso; rw [hpc] at h3; cases h3; cases hn'
    | iterNext levels out =>
      exfalso
      rw [hpc] at h3
      simp only [tick, tickIterNext] at h3
      repeat' split at h3
      all_goals first
        | (cases h3; done)
        | (cases h3; cases hn')
  · rw [Exec.Running, h1] at hc; cases hc

/-- No word anywhere is condemned. -/
def Mem.Calm (m : Mem P) : Prop :=
  m.root.cond = false ∧ ∀ a c p n, m.mem a = some (.inner c p) → (c n).cond = false

theorem Mem.Calm.read {m : Mem P} (h : m.Calm) {l : Loc} {w : Word} (hr : m.read l = some w) : w.cond = false := by
  cases l with
  | root => cases hr; exact h.1
  | slot a n =>
    simp only [Mem.read, Mem.deref] at hr
    split at hr
    · next c p hd =>
      cases hr
      split at hd
      · cases hd
      · exact h.2 a c p n hd
    · cases hr

/-- The call does not remove or clear away anything, and is not about to publish a condemned word. -/
def PC.calm : PC K P → Prop
  | .travCas _ _ _ _ _ _ _ new _ => ∀ c p n, new = .inner c p → (c n).cond = false
  | .rem .. => False
  | .remCas .. => False
  | .count .. => False
  | .prune .. => False
  | .pruneCas .. => False
  | _ => True

theorem Mem.Calm.alloc {m : Mem P} (h : m.Calm) {nd : Node P} (hn : ∀ c p n, nd = .inner c p → (c n).cond = false) : (m.alloc nd).Calm := by
  refine ⟨h.1, ?_⟩
  intro a c p n ha
  simp only [Mem.alloc, upd] at ha
  split at ha
  · exact hn c p n (by simpa using ha)
  · exact h.2 a c p n ha

theorem Mem.Calm.write {m : Mem P} (h : m.Calm) {w : Word} (hw : w.cond = false) (l : Loc) : (m.write w l).Calm := by
  cases l with
  | root => exact ⟨hw, h.2⟩
  | slot b i =>
    simp only [Mem.write]
    split
    · next cells path hm =>
      refine ⟨h.1, ?_⟩
      intro a c p n ha
      simp only [upd] at ha
      split at ha
      · simp only [Option.some.injEq, Node.inner.injEq] at ha
        rw [← ha.1]
        simp only [upd]
        split
        · exact hw
        · exact h.2 _ _ _ _ hm
      · exact h.2 a c p n ha
    · exact h

theorem Mem.Calm.retire {m : Mem P} (h : m.Calm) (a : Nat) : (m.retire a).Calm := h

theorem tick_calm {m : Mem P} (h : m.Calm) {weak : Bool} {pc : PC K P} (hq : pc.calm) :
    (tick cfg m weak pc).1.Calm ∧ ∀ pc' ran, (tick cfg m weak pc).2 = .goto pc' ran → pc'.calm := by
  cases pc with
  | trav st hash mode shift cur parent =>
    refine ⟨h, ?_⟩
    intro pc' ran ht
    simp only [tick, tickTrav] at ht
    split at ht
    · cases ht
    · next w hw =>
      have hc := h.read hw
      simp only [hc, Bool.false_eq_true, ↓reduceIte] at ht
      repeat' split at ht
      all_goals first
        | exact (finishTrav_not_goto ht).elim
        | (cases ht; done)
        | (cases ht; trivial)
        | (cases ht; intro c p n e; cases e; done)
        | (cases ht; intro c p n e; cases e; simp only [upd]; split <;> first | exact hc | rfl)
  | travCas st hash mode shift cur parent node new kind =>
    have h1 := fun (w : Word) (hw : w.cond = false) => (h.alloc (nd := new) hq).write hw cur
    simp only [tick, tickTravCas]
    repeat' split
    all_goals first
      | exact ⟨h, fun pc' ran ht => by cases ht <;> trivial⟩
      | exact ⟨h1 _ rfl, fun pc' ran ht => by cases ht <;> trivial⟩
      | exact ⟨h1 _ rfl, fun pc' ran ht => (finishTrav_not_goto ht).elim⟩
      | exact ⟨(h1 _ rfl).retire _, fun pc' ran ht => (finishTrav_not_goto ht).elim⟩
  | get key hash cur =>
    refine ⟨h, ?_⟩
    intro pc' ran ht
    simp only [tick, tickGet] at ht
    repeat' split at ht
    all_goals (cases ht; try trivial)
  | isEmpty => exact ⟨h, fun pc' ran ht => by cases ht⟩
  | iterNew => exact ⟨h, fun pc' ran ht => by cases ht; trivial⟩
  | iterNext levels out =>
    refine ⟨h, ?_⟩
    intro pc' ran ht
    simp only [tick, tickIterNext] at ht
    repeat' split at ht
    all_goals (cases ht; try trivial)
  | _ => exact hq.elim

theorem Exec.calm (E : Exec cfg) {i : Nat} (hno : ∀ j t k, j < i → E.lab j ≠ .call t (.op (.remove k))) :
    (E.st i).m.Calm ∧ ∀ t c, E.Running i t c → c.pc.calm := by
  induction i with
  | zero =>
    rw [E.init]
    refine ⟨⟨rfl, fun a c p n h => by cases h⟩, ?_⟩
    intro t c h
    rw [Exec.Running, E.init] at h; cases h
  | succ i ih =>
    obtain ⟨h1, h2⟩ := ih (fun j t k hj => hno j t k (by omega))
    constructor
    · have hs := E.step i
      cases hl : E.lab i with
      | tick t weak =>
        rw [hl] at hs
        simp only [Contrie.step] at hs
        split at hs
        · cases hs
        · next c hc =>
          have := (tick_calm (cfg := cfg) h1 (weak := weak) (h2 t c hc)).1
          simp only [Option.some.injEq, Prod.mk.injEq] at hs
          rw [← hs.1]
          exact this
      | _ =>
        rw [hl] at hs
        simp only [Contrie.step] at hs
        repeat' split at hs
        all_goals first
          | (cases hs; done)
          | (simp only [Option.some.injEq, Prod.mk.injEq] at hs; rw [← hs.1]; exact h1)
    · intro t c hc
      rcases step_run_full (E.step i) hc with ⟨g1, -⟩ | ⟨c0, pc, ran, weak, g1, g2, g3, rfl⟩ | ⟨r, g1, rfl, -⟩
      · exact h2 t c g1
      · exact (tick_calm h1 (h2 t c0 g1)).2 _ _ g3
      · cases r with
        | op o => cases o <;> first | trivial | exact absurd g1 (hno i t _ (by omega))
        | isEmpty => trivial
        | iter => trivial

/-- **C53**, without removals: as long as no removal has been called, no call clears anything away, none comes back to the root once it has left it,
and nothing is ever condemned. -/
theorem C53_no_removal_no_restart (E : Exec cfg) {i : Nat} (hno : ∀ j t k, j < i → E.lab j ≠ .call t (.op (.remove k))) :
    (∀ t c, E.Running i t c → c.pc.helps = false) ∧
    (∀ t c c' j, j < i → E.Running j t c → E.Running (j + 1) t c' → c'.inv = c.inv → c'.pc.cur = some .root → c.pc.cur = some .root) ∧
    (∀ l w, (E.st i).m.read l = some w → w.cond = false) := by
  refine ⟨?_, ?_, fun l w h => (E.calm hno).1.read h⟩
  · intro t c hc
    have := (E.calm hno).2 t c hc
    cases hpc : c.pc <;> rw [hpc] at this <;> first | rfl | exact this.elim
  · intro t c c' j hj hc hc' hs hn'
    by_cases hn : c.pc.cur = some .root
    · exact hn
    · obtain ⟨j', weak, c0, l, ord, w, g1, g2, g3, g4, g5, g6, g7, g8⟩ := C53_restart_has_reason E hc hc' hs hn hn'
      have := (E.calm (i := j') (fun a t k ha => hno a t k (by omega))).1.read g7
      rw [this] at g8; cases g8

/-- Session 0 has put 7 and 23 under a common inner node, has removed 23 and is clearing the inner node away (the first cell is condemned), when session 1
inserts 7 anew: it meets the condemned cell, helps and starts over. -/
def exHelp : List (Label Nat (Nat × Nat)) :=
  [.pin 0, .pin 1, .call 0 (.op (.insert (7, 1)))] ++ ticks 0 2 ++ [.call 0 (.op (.insert (23, 2)))] ++ ticks 0 8 ++
  [.call 0 (.op (.remove 23))] ++ ticks 0 21 ++ [.call 1 (.op (.insert (7, 5)))] ++ ticks 1 23

/-- Non-vacuity of the first part: in the run `exRace`, the compare-and-set of the insertion of session 0 (step 9) finds that session 1 has meanwhile put
its element into the root. -/
example : ∃ (E : Exec exCfg) (c : Call Nat (Nat × Nat)), E.Running 9 0 c ∧ c.pc.cas = some (.root, Word.null) ∧
    (E.st 9).m.read .root ≠ some Word.null ∧ E.ChangedBy 0 c.inv 9 .root (.insert (7, 2)) := by
  obtain ⟨E, h1, -, h3⟩ := Exec.ofCheck' (cfg := exCfg) 4 (ls := exRace) (by decide)
  have hr : E.Running 9 0 (((stAt exCfg exRace 9).thr 0).run.get (by rfl)) := by rw [Exec.Running, h1]; exact (Option.some_get _).symm
  refine ⟨E, _, hr, rfl, by rw [h1]; decide, 8, 1, false, ((stAt exCfg exRace 8).thr 1).run.get (by rfl), Word.null, ⟨some 0, false, true⟩,
    (by decide), by omega, by omega, by rw [h3]; rfl, by rw [Exec.Running, h1]; exact (Option.some_get _).symm, rfl, rfl, by rw [h1]; rfl, by rw [h1]; rfl,
    by decide, ?_⟩
  intro a n h; cases h

set_option maxRecDepth 8000 in
/-- Non-vacuity of the rest: in the run `exHelp`, session 1 reads the condemned word in step 39, helps, and is back at the root at instant 57. -/
example : ∃ (E : Exec exCfg) (c c' : Call Nat (Nat × Nat)), E.Running 56 1 c ∧ E.Running 57 1 c' ∧ c'.inv = c.inv ∧ c.pc.helps = true ∧
    c.pc.cur ≠ some .root ∧ c'.pc.cur = some .root ∧ E.MetCondemned 1 c.inv 56 := by
  obtain ⟨E, h1, -, h3⟩ := Exec.ofCheck' (cfg := exCfg) 4 (ls := exHelp) (by decide)
  have e1 : ((stAt exCfg exHelp 56).thr 1).run.map (fun c => (c.inv, c.pc.helps, c.pc.cur)) = some (36, true, none) := by decide
  have e2 : ((stAt exCfg exHelp 57).thr 1).run.map (fun c => (c.inv, c.pc.helps, c.pc.cur)) = some (36, false, some .root) := by decide
  obtain ⟨c, hc, g1⟩ := Option.map_eq_some_iff.mp e1
  obtain ⟨c', hc', g2⟩ := Option.map_eq_some_iff.mp e2
  simp only [Prod.mk.injEq] at g1 g2
  have hr : E.Running 56 1 c := by rw [Exec.Running, h1]; exact hc
  exact ⟨E, c, c', hr, by rw [Exec.Running, h1]; exact hc', by rw [g1.1, g2.1], g1.2.1, by rw [g1.2.2]; simp, g2.2.2, C53_help_has_reason E hr g1.2.1⟩

end Contrie
