import Verif.Model.Ledger
import Verif.Proof.WildRest
import Mathlib.Algebra.BigOperators.Group.Finset.Basic
import Mathlib.Algebra.Order.Group.Multiset
import Mathlib.Tactic.Abel
/-
What the steps do to elements: the books balance.
-/
set_option linter.unusedSectionVars false
namespace Contrie
variable {K P : Type}

@[simp] theorem gained_append (l l' : List (Act P)) : gained (l ++ l') = gained l ++ gained l' := List.filterMap_append
@[simp] theorem dropped_append (l l' : List (Act P)) : dropped (l ++ l') = dropped l ++ dropped l' := List.filterMap_append
@[simp] theorem leaked_append (l l' : List (Act P)) : leaked (l ++ l') = leaked l ++ leaked l' := List.filterMap_append
@[simp] theorem gained_nil : gained ([] : List (Act P)) = [] := rfl
@[simp] theorem dropped_nil : dropped ([] : List (Act P)) = [] := rfl
@[simp] theorem leaked_nil : leaked ([] : List (Act P)) = [] := rfl

@[simp] theorem gained_clones (l : List P) : gained (l.map .clone) = l := by
  induction l with
  | nil => rfl
  | cons x l ih => simpa [gained] using ih
@[simp] theorem dropped_clones (l : List P) : dropped (l.map .clone) = [] := by
  induction l with
  | nil => rfl
  | cons x l ih => simpa [dropped] using ih
@[simp] theorem leaked_clones (l : List P) : leaked (l.map .clone) = [] := by
  induction l with
  | nil => rfl
  | cons x l ih => simpa [leaked] using ih
@[simp] theorem gained_drops (l : List P) : gained (l.map .drop) = [] := by
  induction l with
  | nil => rfl
  | cons x l ih => simpa [gained] using ih
@[simp] theorem dropped_drops (l : List P) : dropped (l.map .drop) = l := by
  induction l with
  | nil => rfl
  | cons x l ih => simpa [dropped] using ih
@[simp] theorem leaked_drops (l : List P) : leaked (l.map .drop) = [] := by
  induction l with
  | nil => rfl
  | cons x l ih => simpa [leaked] using ih
@[simp] theorem gained_leaks (l : List P) : gained (l.map .leak) = [] := by
  induction l with
  | nil => rfl
  | cons x l ih => simpa [gained] using ih
@[simp] theorem dropped_leaks (l : List P) : dropped (l.map .leak) = [] := by
  induction l with
  | nil => rfl
  | cons x l ih => simpa [dropped] using ih
@[simp] theorem leaked_leaks (l : List P) : leaked (l.map .leak) = l := by
  induction l with
  | nil => rfl
  | cons x l ih => simpa [leaked] using ih

/-- The balance of a list of acts: what the owners have before, `X`, and after, `Y`. -/
def Balance (l : List (Act P)) (X Y : Multiset P) : Prop :=
  (gained l : Multiset P) + X = (dropped l : Multiset P) + (leaked l : Multiset P) + Y

theorem Balance.nil (X : Multiset P) : Balance [] X X := by simp [Balance]

theorem Balance.append {l l' : List (Act P)} {X Y Z : Multiset P} (h : Balance l X Y) (h' : Balance l' Y Z) : Balance (l ++ l') X Z := by
  unfold Balance at *
  simp only [gained_append, dropped_append, leaked_append, ← Multiset.coe_add]
  calc (gained l : Multiset P) + gained l' + X = (gained l + X) + gained l' := by abel
    _ = (dropped l + leaked l) + (gained l' + Y) := by rw [h]; abel
    _ = _ := by rw [h']; abel

theorem Balance.frame {l : List (Act P)} {X Y : Multiset P} (Z : Multiset P) (h : Balance l X Y) : Balance l (X + Z) (Y + Z) := by
  unfold Balance at *
  rw [← add_assoc, h, add_assoc]

theorem Balance.clones (l : List P) (X : Multiset P) : Balance (l.map .clone) X (X + l) := by
  simp [Balance, add_comm]

theorem Balance.drops (l : List P) (X : Multiset P) : Balance (l.map .drop) (X + l) X := by
  simp [Balance, add_comm]

theorem Balance.leaks (l : List P) (X : Multiset P) : Balance (l.map .leak) (X + l) X := by
  simp [Balance, add_comm]

theorem Balance.discard (fix : Bool) (l : List P) (X : Multiset P) : Balance (discard fix l) (X + l) X := by
  cases fix
  · exact Balance.leaks l X
  · exact Balance.drops l X

theorem Balance.payload (st : TState K P) (c : P) (X : Multiset P) :
    Balance (st.payloadActs c) (X + st.elems) (X + ([c] : List P) + ([st.payload] : List P)) := by
  cases st with
  | created p =>
    simp only [Balance, TState.payloadActs, TState.elems, TState.payload, gained, dropped, leaked, List.filterMap_cons, List.filterMap_nil, Multiset.coe_nil]
    simp only [Multiset.coe_singleton, zero_add]; abel
  | future k f =>
    simp only [Balance, TState.payloadActs, TState.elems, TState.payload, gained, dropped, leaked, List.filterMap_cons, List.filterMap_nil, Multiset.coe_nil]
    simp only [zero_add, add_zero]
    have : ((f k :: [c] : List P) : Multiset P) = {f k} + {c} := rfl
    rw [this]
    simp only [Multiset.coe_singleton]; abel

/-- All elements in nodes. -/
def Mem.stock (m : Mem P) : Multiset P := ∑ a ∈ Finset.range m.next, (m.elems a : Multiset P)

theorem Mem.stock_congr {m m' : Mem P} (hn : m'.next = m.next) (h : ∀ a, m'.elems a = m.elems a) : m'.stock = m.stock := by
  unfold Mem.stock
  rw [hn]
  exact Finset.sum_congr rfl (fun a _ => by rw [h])

theorem elems_write (m : Mem P) (w : Word) (ℓ : Loc) (a : Nat) : (m.write w ℓ).elems a = m.elems a := by
  cases ℓ with
  | root => rfl
  | slot b i =>
    simp only [Mem.write]
    split
    · next cells path hb =>
      simp only [Mem.elems]
      by_cases e : a = b
      · subst e; simp [hb, Node.items]
      · rw [upd_other _ _ e]
    · rfl

@[simp] theorem stock_write (m : Mem P) (w : Word) (ℓ : Loc) : (m.write w ℓ).stock = m.stock :=
  Mem.stock_congr (by cases ℓ with | root => rfl | slot b i => simp only [Mem.write]; split <;> rfl) (elems_write m w ℓ)

@[simp] theorem stock_retire (m : Mem P) (a : Nat) : (m.retire a).stock = m.stock := rfl

@[simp] theorem stock_bump (m : Mem P) : m.bump.stock = m.stock := rfl

theorem stock_alloc (m : Mem P) (n : Node P) (hf : m.freed m.next = false) : (m.alloc n).stock = m.stock + n.items := by
  unfold Mem.stock
  have : (m.alloc n).next = m.next + 1 := rfl
  rw [this, Finset.sum_range_succ]
  congr 1
  · refine Finset.sum_congr rfl (fun a ha => ?_)
    have : a ≠ m.next := by have := Finset.mem_range.1 ha; omega
    simp only [Mem.elems, Mem.alloc, upd_other _ _ this]
  · simp [Mem.elems, Mem.alloc, hf]

/-- What the call goes on to own. -/
def Next.elems : Next K P → List P
  | .goto pc _ => pc.elems
  | _ => []

theorem finishTrav_elems (mode : Mode) (r : Option (ExistingOrNew P)) (refs : List Nat) : (finishTrav mode r refs : Next K P).elems = [] := by
  unfold finishTrav
  split
  · rfl
  · split <;> rfl

theorem enterPrune_elems {parent : Loc} {child : Word} {k : Cont K P} (h : ∀ f, (enterPrune parent child k) ≠ .fail f) :
    (enterPrune parent child k).elems = k.elems := by
  unfold enterPrune at *
  split
  · next h1 => simp only [h1, if_true] at h; exact absurd rfl (h _)
  · next h1 =>
    split
    · next h2 => simp only [h1, h2] at h; exact absurd rfl (h _)
    · rfl

theorem enterClean_elems (deleted : P) (ref : Nat) (l : List (Loc × Word)) : (enterClean deleted ref l : Next K P).elems = [] := by
  cases l with
  | nil => rfl
  | cons x l =>
    obtain ⟨p, c⟩ := x
    simp only [enterClean]
    split <;> rfl

theorem afterPrune_elems (r : PruneResult) (k : Cont K P) : (afterPrune r k).elems = k.elems := by
  cases k with
  | trav st hash mode => rfl
  | rem key => rfl
  | clean deleted ref rest =>
    simp only [afterPrune]
    split
    · rfl
    · exact enterClean_elems _ _ _

theorem Balance.of_eq {l : List (Act P)} {X Y Z : Multiset P} (h : Balance l X Y) (e : Y = Z) : Balance l X Z := e ▸ h

theorem push_shallow (m : Mem P) (acc : PAcc) (i : Fin 16) (gc : Word) : acc.push m i gc ≠ .error .shallowCollision := by
  intro h
  unfold PAcc.push at h
  cases hp : gc.erase.ptr with
  | none => simp only [hp] at h; cases h
  | some a =>
    simp only [hp] at h
    by_cases hd : gc.erase.data = true
    · simp only [if_pos hd] at h
      cases hl : m.loadData gc.erase with
      | ok items => simp [hl] at h
      | error f =>
        simp only [hl, Except.error.injEq] at h
        subst h
        unfold Mem.loadData at hl
        repeat' split at hl
        all_goals simp at hl
    · simp only [if_neg hd] at h; cases h

/-- One step of a call: what was there before and what came into being is what went and what is there afterwards. -/
theorem hTick_balance (fix : Bool) (o : Answers P) (m : Mem P) (weak : Bool) (pc : PC K P) (hf : m.freed m.next = false)
    (hnf : ∀ f, (hTick o m weak pc).2 = .fail f → f = .shallowCollision) :
    Balance (tickGains o m pc ++ tickLosses fix o m weak pc) (m.stock + pc.elems)
      ((hTick o m weak pc).1.stock + (hTick o m weak pc).2.elems) := by
  cases pc with
  | get key hash cur =>
    have : (hTickGet o m key hash cur : Next K P).elems = [] := by
      unfold hTickGet
      repeat' split
      all_goals rfl
    simp only [hTick, this]
    exact Balance.nil _
  | isEmpty => exact Balance.nil _
  | iterNew => exact Balance.nil _
  | iterNext levels out =>
    have : (tickIterNext m levels out : Next K P).elems = [] := by
      unfold tickIterNext
      repeat' split
      all_goals rfl
    simp only [hTick, this]
    exact Balance.nil _
  | trav st hash mode shift cur parent =>
    simp only [hTick, tickGains, tickLosses, PC.elems] at hnf ⊢
    unfold hTickTrav at hnf ⊢
    unfold gainsTrav lossesTrav
    cases hr : m.read cur with
    | none => simp only [hr] at hnf; exact absurd (hnf _ rfl) (by simp)
    | some node =>
      simp only [hr] at hnf ⊢
      by_cases hc : node.cond = true
      · simp only [hc, if_true] at hnf ⊢
        cases parent with
        | none => exact absurd (hnf _ rfl) (by simp)
        | some x =>
          obtain ⟨p, child⟩ := x
          simp only at hnf ⊢
          rw [enterPrune_elems (fun f hf => ?_)]
          · exact Balance.nil _
          · have := hnf f hf
            subst this
            unfold enterPrune at hf
            split at hf
            · cases hf
            · split at hf <;> cases hf
      · simp only [hc] at hnf ⊢
        cases hp : node.ptr with
        | none =>
          simp only [Bool.false_eq_true, if_false, List.append_nil]
          refine (Balance.payload st _ _).of_eq ?_
          simp only [Next.elems, PC.elems, TState.elems, Node.items, ← Multiset.coe_add]
          rw [add_assoc]
        | some a =>
          simp only [hp, Bool.false_eq_true, if_false] at hnf ⊢
          by_cases hd : node.data = true
          · simp only [hd, if_true] at hnf ⊢
            cases hl : m.loadData node with
            | error f =>
              simp only [hl] at hnf
              have := hnf _ rfl
              subst this
              unfold Mem.loadData at hl
              repeat' split at hl
              all_goals simp at hl
            | ok items =>
              cases items with
              | nil => simp only [hl] at hnf; exact absurd (hnf _ rfl) (by simp)
              | cons d0 rest =>
                simp only [hl] at hnf ⊢
                by_cases hdf : o.differs d0 = true ∧ shift < HASH_BITS
                · simp only [if_pos hdf]
                  by_cases hlen : (d0 :: rest).length ≠ 1
                  · simp only [if_pos hlen, List.nil_append, Next.elems]
                    exact (Balance.drops _ _).of_eq (by simp)
                  · simp only [if_neg hlen, List.nil_append]
                    refine (Balance.nil _).of_eq ?_
                    simp [Next.elems, PC.elems, Node.items]
                · simp only [if_neg hdf]
                  by_cases hfd : (findAns o.equal 0 (d0 :: rest)).isNone = true ∨ mode = .overwrite
                  · simp only [if_pos hfd, List.append_nil]
                    have h1 := (Balance.clones (cloneAns o.clone 0 (filterAns o.keep 0 (d0 :: rest))) (m.stock + st.elems)).append
                      ((Balance.payload st (o.clone (filterAns o.keep 0 (d0 :: rest)).length st.payload)
                        (m.stock + (cloneAns o.clone 0 (filterAns o.keep 0 (d0 :: rest)) : Multiset P))).frame 0 |>.of_eq (add_zero _) |> (fun h => by
                          rw [add_zero, add_right_comm] at h; exact h))
                    refine h1.of_eq ?_
                    simp only [Next.elems, PC.elems, TState.elems, Node.items, ← Multiset.coe_add]
                    abel
                  · simp only [if_neg hfd, List.nil_append]
                    rw [finishTrav_elems]
                    exact (Balance.drops _ _).of_eq (by simp)
          · simp only [if_neg hd] at hnf ⊢
            by_cases hsh : HASH_BITS ≤ shift
            · simp only [if_pos hsh] at hnf; exact absurd (hnf _ rfl) (by simp)
            · simp only [if_neg hsh]; exact Balance.nil _
  | travCas st hash mode shift cur parent node new kind =>
    simp only [hTick, tickGains, tickLosses, PC.elems, List.nil_append] at hnf ⊢
    unfold tickTravCas at hnf ⊢
    unfold lossesTravCas
    cases hr : m.read cur with
    | none => simp only [hr] at hnf; exact absurd (hnf _ rfl) (by simp)
    | some w =>
      simp only [hr] at hnf ⊢
      by_cases hs : w = node ∧ weak = false
      · simp only [hs, and_self, if_true] at hnf ⊢
        have hst : ∀ b, ((m.alloc new).write ⟨some m.next, false, b⟩ cur).stock = m.stock + new.items := by
          intro b; rw [stock_write, stock_alloc _ _ hf]
        have done : ∀ (m1 : Mem P) (n : Next K P), m1.stock = m.stock + new.items → n.elems = [] →
            Balance (st.elems.map .drop) (m.stock + (st.elems ++ new.items : List P)) (m1.stock + n.elems) := by
          intro m1 n h1 h2
          rw [h1, h2, ← Multiset.coe_add, add_comm (st.elems : Multiset P), ← add_assoc]
          exact (Balance.drops _ _).of_eq (by simp)
        cases kind with
        | split =>
          simp only [Next.elems, PC.elems, hst]
          refine (Balance.nil _).of_eq ?_
          rw [← Multiset.coe_add]; abel
        | fresh => cases mode <;> (simp only; exact done _ _ (hst _) (finishTrav_elems _ _ _))
        | replace found =>
          simp only at hnf ⊢
          cases hp : node.ptr with
          | none => simp only [hp] at hnf; exact absurd (hnf _ rfl) (by simp)
          | some old =>
            simp only [hp] at hnf ⊢
            by_cases hd : node.data = false
            · simp only [if_pos hd] at hnf; exact absurd (hnf _ rfl) (by simp)
            · simp only [if_neg hd]
              cases found <;> cases mode <;> (simp only; exact done _ _ (by rw [stock_retire]; exact hst _) (finishTrav_elems _ _ _))
      · simp only [hs, if_false]
        refine ((Balance.discard fix new.items (m.stock + st.elems)).of_eq rfl |> (fun h => ?_))
        rw [← Multiset.coe_add, ← add_assoc]
        exact h
  | rem key shift cur levels =>
    simp only [hTick, tickGains, tickLosses, PC.elems] at hnf ⊢
    unfold hTickRem at hnf ⊢
    unfold clonesRem absentRem
    cases hr : m.read cur with
    | none => simp only [hr] at hnf; exact absurd (hnf _ rfl) (by simp)
    | some node =>
      simp only [hr] at hnf ⊢
      cases hp : node.ptr with
      | none => simp only [ite_self, List.map_nil, List.append_nil]; exact Balance.nil _
      | some a =>
        simp only [hp] at hnf ⊢
        by_cases hc : node.cond = true
        · simp only [if_pos hc, ite_self, List.map_nil, List.append_nil] at hnf ⊢
          cases levels with
          | nil => exact absurd (hnf _ rfl) (by simp)
          | cons x l =>
            obtain ⟨p, child⟩ := x
            simp only at hnf ⊢
            rw [enterPrune_elems (fun f hf => ?_)]
            · exact Balance.nil _
            · have := hnf f hf
              subst this
              unfold enterPrune at hf
              split at hf
              · cases hf
              · split at hf <;> cases hf
        · simp only [if_neg hc] at hnf ⊢
          by_cases hd : node.data = true
          · simp only [if_pos hd] at hnf ⊢
            cases hl : m.loadData node with
            | error f =>
              simp only [hl] at hnf
              have := hnf _ rfl
              subst this
              unfold Mem.loadData at hl
              repeat' split at hl
              all_goals simp at hl
            | ok items =>
              simp only
              cases hg : (filterAns o.equal 0 items).getLast? with
              | none =>
                simp only [Option.isNone_none, if_true]
                exact ((Balance.clones _ _).append (Balance.drops _ _)).of_eq rfl
              | some deleted =>
                simp only [Option.isNone_some, Bool.false_eq_true, if_false, List.append_nil]
                refine (Balance.clones _ _).of_eq ?_
                simp [Next.elems, PC.elems]
          · simp only [if_neg hd, ite_self, List.map_nil, List.append_nil] at hnf ⊢
            split
            · exact Balance.nil _
            · split <;> exact Balance.nil _
  | remCas key shift cur levels node new deleted =>
    simp only [hTick, tickGains, tickLosses, PC.elems, List.nil_append] at hnf ⊢
    unfold tickRemCas at hnf ⊢
    unfold lossesRemCas
    cases hr : m.read cur with
    | none => simp only [hr] at hnf; exact absurd (hnf _ rfl) (by simp)
    | some w =>
      simp only [hr] at hnf ⊢
      by_cases hs : w = node ∧ weak = false
      · simp only [if_pos hs] at hnf ⊢
        cases hp : node.ptr with
        | none => simp only [hp] at hnf; exact absurd (hnf _ rfl) (by simp)
        | some old =>
          simp only [hp] at hnf ⊢
          by_cases hd : node.data = false
          · simp only [if_pos hd] at hnf; exact absurd (hnf _ rfl) (by simp)
          · simp only [if_neg hd, stock_retire, enterClean_elems]
            cases new with
            | nil => simp only [stock_write]; exact Balance.nil _
            | cons x l =>
              simp only [stock_write, stock_alloc _ _ hf, Node.items]
              exact (Balance.nil _).of_eq (by simp)
      · simp only [if_neg hs]
        exact (Balance.discard fix new m.stock).of_eq (by simp [Next.elems, PC.elems])
  | count deleted ref parent child rest i cnt =>
    simp only [hTick, tickGains, tickLosses, PC.elems, List.nil_append] at hnf ⊢
    unfold tickCount at hnf ⊢
    cases hp : child.ptr with
    | none => simp only [hp] at hnf; exact absurd (hnf _ rfl) (by simp)
    | some a =>
      simp only [hp] at hnf ⊢
      cases hr : m.read (.slot a i) with
      | none => simp only [hr] at hnf; exact absurd (hnf _ rfl) (by simp)
      | some w =>
        simp only [hr] at hnf ⊢
        generalize (if w.ptr.isSome = true then cnt + 1 else cnt) = cnt' at *
        by_cases h : i.val + 1 < 16
        · simp only [dif_pos h]; exact Balance.nil _
        · simp only [dif_neg h] at hnf ⊢
          by_cases h2 : 1 < cnt'
          · simp only [if_pos h2]; exact Balance.nil _
          · simp only [if_neg h2] at hnf ⊢
            rw [enterPrune_elems (fun f hf => ?_)]
            · exact Balance.nil _
            · have := hnf f hf
              subst this
              unfold enterPrune at hf
              split at hf
              · cases hf
              · split at hf <;> cases hf
  | prune parent child i acc k =>
    simp only [hTick, tickGains, tickLosses, PC.elems, List.nil_append] at hnf ⊢
    unfold tickPrune at hnf ⊢
    cases hp : child.ptr with
    | none => simp only [hp] at hnf; exact absurd (hnf _ rfl) (by simp)
    | some a =>
      simp only [hp] at hnf ⊢
      cases hr : m.read (.slot a i) with
      | none => simp only [hr] at hnf; exact absurd (hnf _ rfl) (by simp)
      | some gc =>
        simp only [hr] at hnf ⊢
        cases hq : acc.push (m.write gc.condemn (.slot a i)) i gc with
        | error f =>
          simp only [hq] at hnf
          have := hnf _ rfl
          subst this
          exact absurd hq (push_shallow _ _ _ _)
        | ok acc' =>
          simp only [hq] at hnf ⊢
          by_cases h : i.val + 1 < 16
          · simp only [dif_pos h, stock_write]; exact Balance.nil _
          · simp only [dif_neg h] at hnf ⊢
            by_cases h2 : child.cond = true ∨ child.data = true
            · simp only [if_pos h2] at hnf; exact absurd (hnf _ rfl) (by simp)
            · simp only [if_neg h2, stock_write]; exact Balance.nil _
  | pruneCas parent child acc k =>
    simp only [hTick, tickGains, tickLosses, PC.elems, List.nil_append] at hnf ⊢
    unfold tickPruneCas at hnf ⊢
    cases hp : child.ptr with
    | none => simp only [hp] at hnf; exact absurd (hnf _ rfl) (by simp)
    | some a =>
      simp only [hp] at hnf ⊢
      split
      · next w cells path hr hdr =>
        by_cases h : w = child
        · simp only [if_pos h, stock_retire, afterPrune_elems]
          cases acc.decide.1 with
          | word w' => simp only [stock_write]; exact Balance.nil _
          | copy cells => simp only [stock_write, stock_alloc _ _ hf, Node.items]; exact (Balance.nil _).of_eq (by simp)
        · simp only [if_neg h, afterPrune_elems]; exact Balance.nil _
      · next hx =>
        split at hnf
        · next w cells path hr hdr => exact absurd hdr (hx _ _ _ hr)
        · exact absurd (hnf _ rfl) (by simp)


/-! ### Steps of the machine -/

/-- All the elements owned by calls of sessions in `T`. -/
def CState.purse (s : CState K P) (T : Finset Nat) : Multiset P := ∑ t ∈ T, (s.owned t : Multiset P)

/-- The elements owned by the call a session is in. -/
def CThread.elems (th : CThread K P) : List P := match th.run with
  | none => []
  | some c => c.pc.elems

theorem purse_next (s : CState K P) (m' : Mem P) {t : Nat} (th : CThread K P) {T : Finset Nat} (ht : t ∈ T) :
    ∃ Z : Multiset P, s.purse T = (s.owned t : Multiset P) + Z ∧
      (s.next m' t th).purse T = (th.elems : Multiset P) + Z := by
  refine ⟨∑ u ∈ T.erase t, (s.owned u : Multiset P), (Finset.add_sum_erase T _ ht).symm, ?_⟩
  unfold CState.purse
  rw [← Finset.add_sum_erase T _ ht]
  congr 1
  · simp only [CState.owned, CState.next, upd_same]; rfl
  · refine Finset.sum_congr rfl (fun u hu => ?_)
    have : u ≠ t := Finset.ne_of_mem_erase hu
    simp only [CState.owned, CState.next, upd_other _ _ this]

theorem purse_same {s s' : CState K P} (h : ∀ t, (s'.thr t).run = (s.thr t).run) (T : Finset Nat) : s'.purse T = s.purse T :=
  Finset.sum_congr rfl (fun t _ => by simp only [CState.owned, h])

theorem run_next (s : CState K P) (m' : Mem P) (t : Nat) (th : CThread K P) (h : th.run = (s.thr t).run) (u : Nat) :
    ((s.next m' t th).thr u).run = (s.thr u).run := by
  by_cases e : u = t
  · subst e; simp only [CState.next, upd_same, h]
  · simp only [CState.next, upd_other _ _ e]

theorem wapply_elems (th : CThread K P) (c : Call K P) (n : Next K P) :
    (th.wapply c n).elems = n.elems := by
  cases n with
  | goto pc ran => rfl
  | ret r refs => rfl
  | fail f => cases f <;> rfl

theorem purse_congr {s : CState K P} {T T' : Finset Nat} (h : ∀ t, (s.thr t).run ≠ none → t ∈ T) (h' : ∀ t, (s.thr t).run ≠ none → t ∈ T') :
    s.purse T = s.purse T' := by
  have aux : ∀ (T T' : Finset Nat), (∀ t, (s.thr t).run ≠ none → t ∈ T) → s.purse T = s.purse (T ∪ T') := by
    intro T T' h
    refine Finset.sum_subset Finset.subset_union_left (fun t _ ht => ?_)
    have : (s.thr t).run = none := by
      cases hr : (s.thr t).run with
      | none => rfl
      | some c => exact absurd (h t (by rw [hr]; simp)) ht
    simp [CState.owned, this]
  rw [aux T T' h, aux T' T h', Finset.union_comm]

theorem stock_seen (s : CState K P) (pc : PC K P) (τ : Nat) : (s.seen pc τ).stock = s.m.stock := by
  unfold CState.seen Mem.see
  split
  · rfl
  · exact stock_write _ _ _

theorem next_seen (s : CState K P) (pc : PC K P) (τ : Nat) : (s.seen pc τ).next = s.m.next := by
  unfold CState.seen Mem.see
  split
  · rfl
  · exact (write_frame _ _ _).1

theorem freed_seen (s : CState K P) (pc : PC K P) (τ : Nat) : (s.seen pc τ).freed = s.m.freed := see_freed _ _

theorem Balance.unwind (pc : PC K P) (X : Multiset P) : Balance pc.unwind (X + pc.elems) X := by
  cases pc
  case travCas st _ _ _ _ _ _ new _ =>
    simp only [PC.unwind, PC.elems, ← Multiset.coe_add]
    rw [add_comm (st.elems : Multiset P), ← add_assoc]
    exact (Balance.drops _ _).append (Balance.leaks _ _)
  case remCas => exact Balance.leaks _ _
  all_goals exact Balance.drops _ _

theorem stock_free (m : Mem P) (a : Nat) (h : m.mem a ≠ none → a < m.next) :
    m.stock = ({ m with freed := upd m.freed a true } : Mem P).stock + (m.elems a : Multiset P) := by
  by_cases ha : a < m.next
  · unfold Mem.stock
    have hmem : a ∈ Finset.range m.next := Finset.mem_range.2 ha
    show _ = ∑ b ∈ Finset.range m.next, _ + _
    rw [← Finset.add_sum_erase _ _ hmem, ← Finset.add_sum_erase (Finset.range m.next) (fun b => ((({ m with freed := upd m.freed a true } : Mem P).elems b : List P) : Multiset P)) hmem]
    have h1 : ({ m with freed := upd m.freed a true } : Mem P).elems a = [] := by simp [Mem.elems]
    have h2 : ∑ b ∈ (Finset.range m.next).erase a, ((({ m with freed := upd m.freed a true } : Mem P).elems b : List P) : Multiset P) =
        ∑ b ∈ (Finset.range m.next).erase a, (m.elems b : Multiset P) := by
      refine Finset.sum_congr rfl (fun b hb => ?_)
      have : b ≠ a := Finset.ne_of_mem_erase hb
      simp only [Mem.elems, upd_other _ _ this]
    rw [h2]
    simp only [h1, Multiset.coe_nil, zero_add]
    exact add_comm _ _
  · have h1 : m.elems a = [] := by
      cases hm : m.mem a with
      | none => simp [Mem.elems, hm]
      | some n => exact absurd (h (by rw [hm]; simp)) ha
    rw [h1]
    simp only [Multiset.coe_nil, add_zero]
    refine (Mem.stock_congr (m := m) (m' := { m with freed := upd m.freed a true }) rfl (fun b => ?_)).symm
    by_cases e : b = a
    · subst e; rw [h1]; simp [Mem.elems]
    · simp only [Mem.elems, upd_other _ _ e]

namespace WExec
variable [DecidableEq K] (E : WExec K P)

theorem next_live {n : Nat} (hn : n ≤ E.len) : (E.st n).m.freed (E.st n).m.next = false := by
  have hm := E.memInv hn
  cases hx : (E.st n).m.freed (E.st n).m.next with
  | false => rfl
  | true =>
    obtain ⟨τ, hτ⟩ := hm.freedRet _ hx
    exact absurd (hm.fresh _ (Nat.le_refl _)) (hm.retTime _ _ hτ).2

theorem mem_lt {n : Nat} (hn : n ≤ E.len) {a : Nat} (ha : (E.st n).m.mem a ≠ none) : a < (E.st n).m.next := by
  by_contra h
  exact ha ((E.memInv hn).fresh a (Nat.le_of_not_lt h))

/-- The books balance in every step. -/
theorem step_balance (fix : Bool) (extra : List P) {n : Nat} (hn : n < E.len) {T : Finset Nat} (hT : ∀ t, (E.lab n).actor = some t → t ∈ T) :
    Balance (wacts fix (E.st n) (E.ans n) extra (E.lab n)) ((E.st n).m.stock + (E.st n).purse T)
      ((E.st (n + 1)).m.stock + (E.st (n + 1)).purse T) := by
  have hs := E.step n hn
  have hen := E.enabled n hn
  have hpanic : ∀ t weak τ c f, E.lab n = .tick t weak τ → ((E.st n).thr t).run = some c →
      (hTick (E.ans n) ((E.st n).seen c.pc τ) weak c.pc).2 = .fail f → f = .shallowCollision := by
    intro t weak τ c f hl hc h
    have hI := E.winv (Nat.le_of_lt hn)
    have hok := ((hI.did E hn hl hc).1.step hI ((hI.sess t).run c hc) hn).next
    rw [h] at hok
    exact hok
  have hclk : (E.st n).m.clock = n := (E.base (Nat.le_of_lt hn)).clock
  have quiet : ∀ (t : Nat) (th : CThread K P), E.st (n + 1) = (E.st n).next (E.st n).m t th → th.run = ((E.st n).thr t).run →
      Balance [] ((E.st n).m.stock + (E.st n).purse T) ((E.st (n + 1)).m.stock + (E.st (n + 1)).purse T) := by
    intro t th h2 h1
    rw [h2, purse_same (run_next _ _ _ _ h1)]
    exact Balance.nil _
  cases hl : E.lab n with
  | pin t =>
    simp only [hl, wstep] at hs
    split at hs
    · simp only [Option.some.injEq, Prod.mk.injEq] at hs
      exact quiet _ _ hs.1.symm rfl
    · cases hs
  | unpin t =>
    simp only [hl, wstep] at hs
    split at hs
    · simp only [Option.some.injEq, Prod.mk.injEq] at hs
      exact quiet _ _ hs.1.symm rfl
    · cases hs
  | call t r =>
    simp only [hl, wstep] at hs
    split at hs
    · next p h1 h2 h3 =>
      simp only [Option.some.injEq, Prod.mk.injEq] at hs
      rw [← hs.1]
      obtain ⟨Z, h4, h5⟩ := purse_next (E.st n) (E.st n).m
        ({ (E.st n).thr t with run := some ⟨(E.st n).m.clock, r, hStartPC (E.hash n) r, 0, 0⟩ }) (hT t (by rw [hl]; rfl))
      rw [h4, h5]
      have h6 : (E.st n).owned t = [] := by simp only [CState.owned, h2]
      rw [h6]
      simp only [wacts]
      cases r with
      | op o =>
        cases o with
        | insert p =>
          simp only [Balance, Req.acts, hStartPC, CThread.elems, PC.elems, TState.elems, gained, dropped, leaked, List.filterMap_cons, List.filterMap_nil,
            Multiset.coe_nil, zero_add]
          show _ = (E.st n).m.stock + _
          abel
        | get k => exact Balance.nil _
        | remove k => exact Balance.nil _
        | getOrInsert k f => exact Balance.nil _
      | isEmpty => exact Balance.nil _
      | iter => exact Balance.nil _
    · cases hs
  | tick t weak τ =>
    simp only [hl, wstep] at hs
    cases hc : ((E.st n).thr t).run with
    | none => simp only [hc] at hs; cases hs
    | some c =>
      simp only [hc, Option.some.injEq, Prod.mk.injEq] at hs
      obtain ⟨th, hst, hth⟩ : ∃ th : CThread K P, E.st (n + 1) = (E.st n).next
          (if τ = (E.st n).m.clock then (hTick (E.ans n) ((E.st n).seen c.pc τ) weak c.pc).1 else (E.st n).m) t th ∧
          th.elems = (hTick (E.ans n) ((E.st n).seen c.pc τ) weak c.pc).2.elems :=
        ⟨_, hs.1.symm, wapply_elems _ _ _⟩
      obtain ⟨Z, h4, h5⟩ := purse_next (E.st n)
        (if τ = (E.st n).m.clock then (hTick (E.ans n) ((E.st n).seen c.pc τ) weak c.pc).1 else (E.st n).m) th (hT t (by rw [hl]; rfl))
      rw [hst, h4, h5, hth]
      have h6 : (E.st n).owned t = c.pc.elems := by simp only [CState.owned, hc]
      rw [h6]
      have hb := hTick_balance fix (E.ans n) ((E.st n).seen c.pc τ) weak c.pc
        (by rw [freed_seen, next_seen]; exact E.next_live (Nat.le_of_lt hn)) (fun f hf => hpanic t weak τ c f hl hc hf)
      have h7 : ((E.st n).next (if τ = (E.st n).m.clock then (hTick (E.ans n) ((E.st n).seen c.pc τ) weak c.pc).1 else (E.st n).m) t th).m.stock =
          (hTick (E.ans n) ((E.st n).seen c.pc τ) weak c.pc).1.stock := by
        show (Mem.bump _).stock = _
        rw [stock_bump]
        by_cases e : τ = (E.st n).m.clock
        · simp only [if_pos e]
        · simp only [if_neg e]
          rw [hl] at hen
          rcases hen with he | ⟨-, c', ℓ, o, g1, -, -, -, g5⟩
          · exact absurd he e
          · rw [hc] at g1; cases g1
            rw [hTick_quiet _ _ _ g5, stock_seen]
      rw [h7]
      rw [stock_seen] at hb
      have := hb.frame Z
      simp only [wacts, hc]
      rw [← add_assoc, ← add_assoc]
      exact this
  | abort t =>
    simp only [hl, wstep] at hs
    cases hc : ((E.st n).thr t).run with
    | none => simp only [hc] at hs; cases hs
    | some c =>
      simp only [hc, Option.some.injEq, Prod.mk.injEq] at hs
      rw [← hs.1]
      obtain ⟨Z, h4, h5⟩ := purse_next (E.st n) (E.st n).m ({ (E.st n).thr t with pin := none, refs := [], run := none }) (hT t (by rw [hl]; rfl))
      rw [h4, h5]
      have h6 : (E.st n).owned t = c.pc.elems := by simp only [CState.owned, hc]
      rw [h6]
      simp only [wacts, hc]
      have := (((Balance.clones extra ((E.st n).m.stock + c.pc.elems)).append (Balance.drops _ _)).append (Balance.unwind c.pc _)).frame Z
      rw [← add_assoc]
      refine this.of_eq ?_
      simp only [CThread.elems, Multiset.coe_nil, zero_add]
      rfl
  | sync t t' τ =>
    simp only [hl, wstep, Option.some.injEq, Prod.mk.injEq] at hs
    exact quiet _ _ hs.1.symm rfl
  | free a =>
    simp only [hl, wstep, Option.some.injEq, Prod.mk.injEq] at hs
    rw [← hs.1, purse_same (run_next _ _ _ _ rfl)]
    simp only [wacts]
    have h1 := stock_free (E.st n).m a (fun h => E.mem_lt (Nat.le_of_lt hn) h)
    rw [h1, add_right_comm]
    exact Balance.drops _ _
  | idle =>
    simp only [hl, wstep, Option.some.injEq, Prod.mk.injEq] at hs
    exact quiet _ _ hs.1.symm rfl

theorem acts_succ (fix : Bool) (extra : Nat → List P) (n : Nat) :
    E.acts fix extra (n + 1) = E.acts fix extra n ++ wacts fix (E.st n) (E.ans n) (extra n) (E.lab n) := by
  simp only [acts, List.range_succ, List.flatMap_append, List.flatMap_cons, List.flatMap_nil, List.append_nil]

/-- The books balance at all times. -/
theorem balance (fix : Bool) (extra : Nat → List P) {n : Nat} (hn : n ≤ E.len) :
    ∀ {T : Finset Nat}, (∀ t, ((E.st n).thr t).run ≠ none → t ∈ T) →
      Balance (E.acts fix extra n) 0 ((E.st n).m.stock + (E.st n).purse T) := by
  induction n with
  | zero =>
    intro T _
    rw [E.init]
    refine (Balance.nil _).of_eq ?_
    have h1 : (CState.init : CState K P).m.stock = 0 := by simp [CState.init, Mem.init, Mem.stock]
    have h2 : (CState.init : CState K P).purse T = 0 := Finset.sum_eq_zero (fun t _ => rfl)
    rw [h1, h2]; rfl
  | succ n ih =>
    intro T hT
    classical
    let T' := T ∪ (E.lab n).actor.toFinset
    have hact : ∀ t, (E.lab n).actor = some t → t ∈ T' := by
      intro t h
      exact Finset.mem_union_right _ (by rw [h]; simp)
    have hT' : ∀ t, ((E.st (n + 1)).thr t).run ≠ none → t ∈ T' := fun t h => Finset.mem_union_left _ (hT t h)
    rw [acts_succ, purse_congr hT hT']
    refine (ih (by omega) ?_).append (E.step_balance fix (extra n) (by omega) hact)
    intro t h
    by_cases ha : (E.lab n).actor = some t
    · exact hact t ha
    · refine hT' t ?_
      rw [wstep_other (E.step n (by omega)) ha]; exact h

end WExec
end Contrie
