import Verif.Model.Late
import Verif.Proof.Extra
/-
The machine with closures that take time: a step of it does not depend on what a closure has not yet returned.
-/
set_option linter.unusedSectionVars false
namespace Contrie
variable {K P : Type} [DecidableEq K]

/-- There is a closure yet to run. -/
def TState.pending : TState K P → Bool
  | .created _ => false
  | .future _ _ => true

def Cont.pending : Cont K P → Bool
  | .trav st _ _ => st.pending
  | _ => false

def PC.pending : PC K P → Bool
  | .trav st _ _ _ _ _ => st.pending
  | .travCas st _ _ _ _ _ _ _ _ => st.pending
  | .prune _ _ _ _ k => k.pending
  | .pruneCas _ _ _ k => k.pending
  | _ => false

/-- The closure has run before the new element is offered. -/
def PC.Tidy : PC K P → Prop
  | .travCas st _ _ _ _ _ _ _ kind => st.pending = true → kind = .split
  | _ => True

theorem TState.withClosure_same (f : K → P) (st : TState K P) (h : st.pending = false) : st.withClosure f = st := by
  cases st with
  | created => rfl
  | future => cases h

theorem Cont.withClosure_same (f : K → P) (k : Cont K P) (h : k.pending = false) : k.withClosure f = k := by
  cases k with
  | trav st => simp only [Cont.withClosure, st.withClosure_same f h]
  | _ => rfl

theorem PC.withClosure_same (f : K → P) (pc : PC K P) (h : pc.pending = false) : pc.withClosure f = pc := by
  cases pc with
  | trav st => simp only [PC.withClosure, st.withClosure_same f h]
  | travCas st => simp only [PC.withClosure, st.withClosure_same f h]
  | prune p c i a k => simp only [PC.withClosure, k.withClosure_same f h]
  | pruneCas p c a k => simp only [PC.withClosure, k.withClosure_same f h]
  | _ => rfl

@[simp] theorem TState.withClosure_key (cfg : Config K P) (f : K → P) (st : TState K P) : (st.withClosure f).key cfg = st.key cfg := by
  cases st <;> rfl

@[simp] theorem TState.withClosure_runs (f : K → P) (st : TState K P) : (st.withClosure f).runsClosure = st.runsClosure := by
  cases st <;> rfl

theorem startPC_withClosure (cfg : Config K P) (f : K → P) (r : Req K P) : startPC cfg (r.withClosure f) = (startPC cfg r).withClosure f := by
  cases r with
  | op o => cases o <;> rfl
  | isEmpty => rfl
  | iter => rfl

theorem startPC_tidy (cfg : Config K P) (r : Req K P) : (startPC cfg r).Tidy := by
  cases r with
  | op o => cases o <;> trivial
  | isEmpty => trivial
  | iter => trivial

/-- What may happen to an outcome when the closure is another one. -/
def Next.Like (f : K → P) : Next K P → Next K P → Prop
  | .goto pc false, n => n = .goto (pc.withClosure f) false
  | .goto pc true, n => pc.pending = false ∧ ∃ pc', n = .goto pc' true ∧ pc'.pending = false
  | .ret r refs, n => n = .ret r refs
  | .fail e, n => n = .fail e

theorem Next.Like.self {n : Next K P} (h : ∀ pc ran, n = .goto pc ran → pc.pending = false) (f : K → P) : n.Like f n := by
  cases n with
  | ret => rfl
  | fail => rfl
  | goto pc ran =>
    have := h pc ran rfl
    cases ran with
    | false => simp only [Next.Like, pc.withClosure_same f this]
    | true => exact ⟨this, pc, rfl, this⟩

theorem enterPrune_like (f : K → P) (p : Loc) (w : Word) (k : Cont K P) : (enterPrune p w k).Like f (enterPrune p w (k.withClosure f)) := by
  unfold enterPrune
  split
  · rfl
  · split <;> rfl

theorem enterClean_like (f : K → P) (d : P) (r : Nat) (l : List (Loc × Word)) :
    (enterClean d r l : Next K P).Like f (enterClean d r l) := by
  apply Next.Like.self
  intro pc ran h
  cases l with
  | nil => cases h
  | cons x l =>
    simp only [enterClean] at h
    split at h
    · cases h
    · cases h; rfl

theorem afterPrune_like (f : K → P) (r : PruneResult) (k : Cont K P) : (afterPrune r k).Like f (afterPrune r (k.withClosure f)) := by
  cases k with
  | trav st => rfl
  | rem => rfl
  | clean d r l =>
    simp only [afterPrune, Cont.withClosure]
    split
    · rfl
    · exact enterClean_like f d r l

theorem finishTrav_like (f : K → P) (mode : Mode) (r : Option (ExistingOrNew P)) (refs : List Nat) :
    (finishTrav mode r refs : Next K P).Like f (finishTrav mode r refs) := by
  cases mode with
  | overwrite => rfl
  | ifMissing => cases r <;> rfl

theorem tickTrav_like (cfg : Config K P) (f : K → P) (m : Mem P) (st : TState K P) (hash : BitVec 64) (mode : Mode) (shift : Nat) (cur : Loc)
    (parent : Option (Loc × Word)) :
    (tickTrav cfg m st hash mode shift cur parent).Like f (tickTrav cfg m (st.withClosure f) hash mode shift cur parent) := by
  have hp : ∀ (node : Word) (new new' : Node P) (kind : TKind P) (h : st.runsClosure = false → new = new'),
      (Next.goto (.travCas (.created st.payload) hash mode shift cur parent node new kind) st.runsClosure).Like f
        (.goto (.travCas (.created (st.withClosure f).payload) hash mode shift cur parent node new' kind) st.runsClosure) := by
    intro node new new' kind h
    cases st with
    | created p => simp only [TState.runsClosure]; rw [h rfl]; rfl
    | future k g => exact ⟨rfl, _, rfl, rfl⟩
  have hsame : st.runsClosure = false → (st.withClosure f).payload = st.payload := by
    intro h; cases st with
    | created => rfl
    | future => cases h
  unfold tickTrav
  cases hr : m.read cur with
  | none => rfl
  | some node =>
    simp only [TState.withClosure_key, TState.withClosure_runs]
    cases hcd : node.cond with
    | true =>
      simp only [if_true]
      cases parent with
      | none => rfl
      | some x => exact enterPrune_like f x.1 x.2 (.trav st hash mode)
    | false =>
      simp only [Bool.false_eq_true, if_false]
      cases hn : node.ptr with
      | none => exact hp _ _ _ _ (fun h => by rw [hsame h])
      | some a =>
        cases hd : node.data with
        | false =>
          simp only [Bool.false_eq_true, if_false]
          split <;> rfl
        | true =>
          simp only [if_true]
          cases hld : m.loadData node with
          | error e => rfl
          | ok items =>
            cases items with
            | nil => rfl
            | cons d0 rest =>
              simp only
              split
              · split <;> rfl
              · split
                · exact hp _ _ _ _ (fun h => by rw [hsame h])
                · exact finishTrav_like f _ _ _

theorem tickTravCas_like (f : K → P) (m : Mem P) (weak : Bool) (st : TState K P) (hash : BitVec 64) (mode : Mode) (shift : Nat) (cur : Loc)
    (parent : Option (Loc × Word)) (node : Word) (new : Node P) (kind : TKind P) (ht : st.pending = true → kind = .split) :
    (tickTravCas m weak (st.withClosure f) hash mode shift cur parent node new kind).1 = (tickTravCas m weak st hash mode shift cur parent node new kind).1 ∧
    (tickTravCas m weak st hash mode shift cur parent node new kind).2.Like f
      (tickTravCas m weak (st.withClosure f) hash mode shift cur parent node new kind).2 := by
  unfold tickTravCas
  cases hr : m.read cur with
  | none => exact ⟨rfl, rfl⟩
  | some w =>
    simp only
    split
    · cases kind with
      | split => exact ⟨rfl, rfl⟩
      | fresh =>
        have hst : st.withClosure f = st := st.withClosure_same f (by
          cases h : st.pending with
          | false => rfl
          | true => cases ht h)
        rw [hst]
        cases mode with
        | overwrite => exact ⟨rfl, rfl⟩
        | ifMissing => exact ⟨rfl, rfl⟩
      | replace found =>
        have hst : st.withClosure f = st := st.withClosure_same f (by
          cases h : st.pending with
          | false => rfl
          | true => cases ht h)
        rw [hst]
        refine ⟨rfl, ?_⟩
        cases node.ptr with
        | none => rfl
        | some old =>
          cases node.data with
          | false => rfl
          | true =>
            cases found with
            | none => cases mode <;> rfl
            | some e => exact finishTrav_like f _ _ _
    · exact ⟨rfl, rfl⟩

/-- A step depends on the closure only if it runs it. -/
theorem tick_like (cfg : Config K P) (f : K → P) (m : Mem P) (weak : Bool) (pc : PC K P) (ht : pc.Tidy) :
    (tick cfg m weak (pc.withClosure f)).1 = (tick cfg m weak pc).1 ∧
    (tick cfg m weak pc).2.Like f (tick cfg m weak (pc.withClosure f)).2 := by
  cases pc with
  | get key hash cur =>
    refine ⟨rfl, Next.Like.self ?_ f⟩
    intro pc ran h
    simp only [tick, tickGet] at h
    repeat' split at h
    all_goals (cases h; try rfl)
  | isEmpty => exact ⟨rfl, rfl⟩
  | iterNew => exact ⟨rfl, rfl⟩
  | iterNext levels out =>
    refine ⟨rfl, Next.Like.self ?_ f⟩
    intro pc ran h
    simp only [tick, tickIterNext] at h
    repeat' split at h
    all_goals (cases h; try rfl)
  | trav st hash mode shift cur parent => exact ⟨rfl, tickTrav_like cfg f m st hash mode shift cur parent⟩
  | travCas st hash mode shift cur parent node new kind => exact tickTravCas_like f m weak st hash mode shift cur parent node new kind ht
  | rem key shift cur levels =>
    refine ⟨rfl, ?_⟩
    simp only [tick, PC.withClosure, tickRem]
    repeat' split
    all_goals first
      | rfl
      | exact enterPrune_like f _ _ (.rem key)
  | remCas key shift cur levels node new deleted =>
    refine ⟨rfl, ?_⟩
    simp only [tick, PC.withClosure, tickRemCas]
    repeat' split
    all_goals first
      | rfl
      | exact enterClean_like f _ _ _
  | count deleted ref parent child rest i cnt =>
    refine ⟨rfl, ?_⟩
    simp only [tick, PC.withClosure, tickCount]
    repeat' split
    all_goals first
      | rfl
      | exact enterPrune_like f _ _ (.clean deleted ref rest)
  | prune parent child i acc k =>
    simp only [tick, PC.withClosure, tickPrune]
    cases child.ptr with
    | none => exact ⟨rfl, rfl⟩
    | some a =>
      simp only
      cases m.read (.slot a i) with
      | none => exact ⟨rfl, rfl⟩
      | some gc =>
        simp only
        cases acc.push (m.write gc.condemn (.slot a i)) i gc with
        | error e => exact ⟨rfl, rfl⟩
        | ok acc' =>
          simp only
          repeat' split
          all_goals exact ⟨rfl, rfl⟩
  | pruneCas parent child acc k =>
    simp only [tick, PC.withClosure, tickPruneCas]
    cases child.ptr with
    | none => exact ⟨rfl, rfl⟩
    | some a =>
      simp only
      cases m.read parent with
      | none => exact ⟨rfl, rfl⟩
      | some w =>
        cases m.deref a with
        | none => exact ⟨rfl, rfl⟩
        | some nd =>
          cases nd with
          | data items => exact ⟨rfl, rfl⟩
          | inner cells path =>
            simp only
            split
            · exact ⟨rfl, afterPrune_like f _ _⟩
            · exact ⟨rfl, afterPrune_like f _ _⟩

/-! ### Which steps run the closure -/

theorem enterPrune_goto {p : Loc} {w : Word} {k : Cont K P} {pc : PC K P} {ran : Bool} (h : enterPrune p w k = .goto pc ran) :
    ran = false ∧ pc.pending = k.pending ∧ pc.Tidy := by
  unfold enterPrune at h
  split at h
  · cases h
  · split at h
    · cases h
    · cases h; exact ⟨rfl, rfl, trivial⟩

theorem enterClean_goto {d : P} {r : Nat} {l : List (Loc × Word)} {pc : PC K P} {ran : Bool} (h : enterClean d r l = .goto pc ran) :
    ran = false ∧ pc.pending = false ∧ pc.Tidy := by
  cases l with
  | nil => cases h
  | cons x l =>
    simp only [enterClean] at h
    split at h
    · cases h
    · cases h; exact ⟨rfl, rfl, trivial⟩

theorem finishTrav_goto {mode : Mode} {r : Option (ExistingOrNew P)} {refs : List Nat} {pc : PC K P} {ran : Bool}
    (h : finishTrav mode r refs = .goto pc ran) : False := by
  cases mode with
  | overwrite => cases h
  | ifMissing => cases r <;> cases h

/-- How a step goes on: the closure runs only when the load of `traverse` finds the key missing, there it was pending and is not any more; everywhere else
it is pending afterwards iff it was before. -/
theorem tick_goto {cfg : Config K P} {m : Mem P} {weak : Bool} {pc pc' : PC K P} {ran : Bool} (h : (tick cfg m weak pc).2 = .goto pc' ran) :
    pc'.Tidy ∧ (ran = false → pc'.pending = true → pc.pending = true) ∧ (ran = true → pc.pending = true ∧ pc'.pending = false ∧
      (tick cfg m weak pc).1 = m ∧ ∀ w, tick cfg m w pc = tick cfg m weak pc) := by
  cases pc with
  | get key hash cur =>
    simp only [tick, tickGet] at h
    repeat' split at h
    all_goals (cases h; try exact ⟨trivial, fun _ h => (by cases h), fun h => (by cases h)⟩)
  | isEmpty => cases h
  | iterNew => cases h; exact ⟨trivial, fun _ h => (by cases h), fun h => (by cases h)⟩
  | iterNext levels out =>
    simp only [tick, tickIterNext] at h
    repeat' split at h
    all_goals (cases h; try exact ⟨trivial, fun _ h => (by cases h), fun h => (by cases h)⟩)
  | trav st hash mode shift cur parent =>
    simp only [tick] at h ⊢
    suffices hs : pc'.Tidy ∧ (ran = false → pc'.pending = true → st.pending = true) ∧ (ran = true → st.pending = true ∧ pc'.pending = false) from
      ⟨hs.1, hs.2.1, fun e => ⟨(hs.2.2 e).1, (hs.2.2 e).2, by trivial, fun _ => by trivial⟩⟩
    have hp : ∀ {node : Word} {new : Node P} {kind : TKind P},
        Next.goto (.travCas (.created st.payload) hash mode shift cur parent node new kind) st.runsClosure = .goto pc' ran →
        pc'.Tidy ∧ (ran = false → pc'.pending = true → st.pending = true) ∧ (ran = true → st.pending = true ∧ pc'.pending = false) := by
      intro node new kind h
      injection h with h1 h2
      subst h1 h2
      refine ⟨fun e => (by cases e), fun _ e => (by cases e), fun e => ⟨?_, rfl⟩⟩
      cases st with
      | created => cases e
      | future => rfl
    unfold tickTrav at h
    cases hr : m.read cur with
    | none => rw [hr] at h; cases h
    | some node =>
      rw [hr] at h
      simp only at h
      split at h
      · split at h
        · cases h
        · obtain ⟨h1, h2, h3⟩ := enterPrune_goto h
          subst h1
          exact ⟨h3, fun _ e => (by rw [h2] at e; exact e), fun e => (by cases e)⟩
      · split at h
        · exact hp h
        · split at h
          · split at h
            · cases h
            · cases h
            · split at h
              · split at h
                · cases h
                · cases h; exact ⟨fun _ => rfl, fun _ e => e, fun e => (by cases e)⟩
              · split at h
                · exact hp h
                · exact (finishTrav_goto h).elim
          · split at h
            · cases h
            · cases h; exact ⟨trivial, fun _ e => e, fun e => (by cases e)⟩
  | travCas st hash mode shift cur parent node new kind =>
    simp only [tick, tickTravCas] at h
    repeat' split at h
    all_goals first
      | exact (finishTrav_goto h).elim
      | (cases h; done)
      | (cases h; exact ⟨trivial, fun _ e => e, fun e => (by cases e)⟩)
  | rem key shift cur levels =>
    simp only [tick, tickRem] at h
    repeat' split at h
    all_goals first
      | (cases h; done)
      | (cases h; exact ⟨trivial, fun _ e => (by cases e), fun e => (by cases e)⟩)
      | (obtain ⟨h1, h2, h3⟩ := enterPrune_goto h
         subst h1
         exact ⟨h3, fun _ e => (by rw [h2] at e; cases e), fun e => (by cases e)⟩)
  | remCas key shift cur levels node new deleted =>
    simp only [tick, tickRemCas] at h
    repeat' split at h
    all_goals first
      | (cases h; done)
      | (cases h; exact ⟨trivial, fun _ e => (by cases e), fun e => (by cases e)⟩)
      | (obtain ⟨h1, h2, h3⟩ := enterClean_goto h
         subst h1
         exact ⟨h3, fun _ e => (by rw [h2] at e; cases e), fun e => (by cases e)⟩)
  | count deleted ref parent child rest i cnt =>
    simp only [tick, tickCount] at h
    repeat' split at h
    all_goals first
      | (cases h; done)
      | (cases h; exact ⟨trivial, fun _ e => (by cases e), fun e => (by cases e)⟩)
      | (obtain ⟨h1, h2, h3⟩ := enterPrune_goto h
         subst h1
         exact ⟨h3, fun _ e => (by rw [h2] at e; cases e), fun e => (by cases e)⟩)
  | prune parent child i acc k =>
    simp only [tick, tickPrune] at h
    repeat' split at h
    all_goals first
      | (cases h; done)
      | (cases h; exact ⟨trivial, fun _ e => e, fun e => (by cases e)⟩)
  | pruneCas parent child acc k =>
    have hk : ∀ r, afterPrune r k = .goto pc' ran → pc'.Tidy ∧ (ran = false → pc'.pending = true → k.pending = true) ∧ ran = false := by
      intro r h
      cases k with
      | trav => cases h; exact ⟨trivial, fun _ e => e, rfl⟩
      | rem => cases h; exact ⟨trivial, fun _ e => (by cases e), rfl⟩
      | clean d r' l =>
        simp only [afterPrune] at h
        split at h
        · cases h
        · obtain ⟨h1, h2, h3⟩ := enterClean_goto h
          exact ⟨h3, fun _ e => (by rw [h2] at e; cases e), h1⟩
    have hk' : ∀ r, afterPrune r k = .goto pc' ran → pc'.Tidy ∧ (ran = false → pc'.pending = true → (PC.pruneCas parent child acc k).pending = true) ∧
        (ran = true → (PC.pruneCas parent child acc k).pending = true ∧ pc'.pending = false ∧
      (tick cfg m weak (.pruneCas parent child acc k)).1 = m ∧ ∀ w, tick cfg m w (.pruneCas parent child acc k) = tick cfg m weak (.pruneCas parent child acc k)) := by
      intro r h
      obtain ⟨h1, h2, h3⟩ := hk r h
      exact ⟨h1, h2, fun e => by rw [h3] at e; cases e⟩
    simp only [tick, tickPruneCas] at h
    split at h
    · cases h
    · split at h
      · split at h
        · exact hk' _ h
        · exact hk' _ h
      · cases h

end Contrie
