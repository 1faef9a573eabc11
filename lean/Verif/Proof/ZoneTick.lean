import Verif.Proof.Zone
/-
Executions in which removals of keys below `g` do not overlap: the steps.
-/
set_option linter.unusedSectionVars false
namespace Contrie
variable {K P : Type} [DecidableEq K]
variable {cfg : Config K P} {A : Nat → AMap K P} {W : Nat → Option (LP K P)} {m m' : Mem P} {weak : Bool}
  {I : K → Prop} {R : Option (BitVec 64 × PC K P)} {g : List (Fin 16)}

/-- What the removal was cleaning up, it still is, or there is nothing to worry about. -/
def Keep (g : List (Fin 16)) (m : Mem P) (R R' : Option (BitVec 64 × PC K P)) : Prop :=
  ∀ a c q, m.mem a = some (.inner c q) → g <+: q → m.retired a = none → OnR R a → OnR R' a ∨ (q = g ∧ ∀ j, (c j).cond = true)

theorem Keep.refl : Keep g m R R := fun _ _ _ _ _ _ h => Or.inl h

theorem keep_none {R' : Option (BitVec 64 × PC K P)} {h : BitVec 64} {pc : PC K P} (hpc : pc.on = none) : Keep g m (some (h, pc)) R' := by
  rintro a c q - - - ⟨h', pc', e1, e2⟩
  cases e1
  rw [hpc] at e2; cases e2

/-- The invariant after a step of a call that is not a removal of a key below `g`. -/
def ZOut (cfg : Config K P) (g : List (Fin 16)) (m : Mem P) (I : K → Prop) (R : Option (BitVec 64 × PC K P)) (ok : Prop) : Next K P → Prop
  | .goto pc _ => ZInv cfg g m I R ∧ HelpZPC g m R pc
  | .ret _ _ => ZInv cfg g m I R ∧ ok
  | .fail _ => True

/-- The invariant after a step of a removal of a key below `g`. -/
def ZRem (cfg : Config K P) (g : List (Fin 16)) (m : Mem P) (I : K → Prop) (h : BitVec 64) (R : Option (BitVec 64 × PC K P)) : Next K P → Prop
  | .goto pc _ => ZInv cfg g m I (some (h, pc)) ∧ HelpZPC g m (some (h, pc)) pc ∧ Keep g m R (some (h, pc))
  | .ret _ _ => ZInv cfg g m I none ∧ Keep g m R none
  | .fail _ => True

/-! ### A pruned node is replaced -/

/-- Replacing the node the removal is cleaning up, below `g`. -/
theorem ZInv.helped {h : BitVec 64} {pc : PC K P} {a : Nat}
    (ho : ZInv cfg g m I (some (h, pc))) (hi : MemInv cfg A m) (hA : A m.clock = m.abs cfg) (hpcon : pc.on = some a)
    {c : Fin 16 → Word} {p : List (Fin 16)} (hm : m.mem a = some (.inner c p)) (hb : BelowZ g p)
    {loc : Loc} (hat : m.At loc p ⟨some a, false, false⟩)
    {acc : PAcc} (hacc : AccOK m c 16 acc) (hacc2 : Acc2 m c 16 acc) {w' : Word} {new : Option (Node P)}
    (hdec : acc.decide.1 = .word w' ∧ new = none ∨
      ∃ cells, acc.decide.1 = .copy cells ∧ w' = ⟨some m.next, false, false⟩ ∧ new = some (.inner cells p))
    (hsw : Swung m m' loc w' new (some a)) : ZInv cfg g m' I (some (h, pc)) ∧ (new ≠ none → Just cfg (m'.abs cfg) I p) ∧ m'.retired a ≠ none := by
  have key : ∀ parent child rest, OnZ g m h parent child rest →
      (∀ m0 : Mem P, pc.todo m0 = rest.length + liveBit m0 child) → pc.on = child.ptr →
      (∀ m0, OnZ g m0 h parent child rest → RemZ g m0 h pc) → ZInv cfg g m' I (some (h, pc)) ∧ (new ≠ none → Just cfg (m'.abs cfg) I p) ∧ m'.retired a ≠ none := by
    rintro parent child rest ⟨h1, h2, a', c', rfl, h4, h5⟩ htodo hpo hrem
    rw [hpcon] at hpo
    cases hpo
    rw [hm] at h4; cases h4
    obtain ⟨hg, -⟩ := ho.r _ _ rfl
    have hplen : (pre h rest.length).length = rest.length := pre_length _ (by omega)
    have hret : m.retired a = none := hi.live _ _ a (hi.at_follow hat rfl) rfl
    have hbit : liveBit m ⟨some a, false, false⟩ = 1 := by simp [liveBit, hret]
    have hgone : m'.retired a ≠ none := by rw [hsw.retired, if_pos rfl]; simp
    have hbit' : liveBit m' ⟨some a, false, false⟩ = 0 := by simp [liveBit, hgone]
    have hpok := PAcc.decide_ok hacc (pre h rest.length)
    have hpok' : PruneOK m (pre h rest.length) c w' new := by
      rcases hdec with ⟨e1, rfl⟩ | ⟨cells, e1, rfl, rfl⟩
      · rw [e1] at hpok; exact hpok
      · rw [e1] at hpok; exact hpok
    obtain ⟨hinv, habs⟩ := hi.pruned hat hA rfl rfl rfl hm (fun i => hacc.cond i i.isLt) hpok' hsw
    have hw'c : w'.cond = false := by cases hpok' <;> rfl
    have hjust : new ≠ none → Just cfg (m.abs cfg) I (pre h rest.length) := by
      intro hne
      rcases hdec with ⟨e1, e⟩ | ⟨cells, e1, -, -⟩
      · exact absurd e hne
      · refine ho.s.of_copy hi hm hret hb.1 ?_ hacc2 (r := acc.decide.2) (by rw [← e1])
        intro i e
        rcases exW.just e with e | ⟨h', pc', e, -, e'⟩
        · exact e
        · cases e
          rw [htodo, hbit, List.length_append, hplen] at e'
          simp at e'
    have hcells : ∀ cells p', new = some (.inner cells p') → p' = pre h rest.length ∧ ∀ i, (cells i).cond = false := by
      intro cells p' e
      cases hpok' with
      | null => cases e
      | single => cases e
      | copy => cases e; exact ⟨rfl, fun i => rfl⟩
    have hevo : Evo m m' := hsw.evo hi hat rfl (by intro b e; cases e; rfl)
    refine ⟨⟨?_, ?_⟩, fun hne => by rw [habs]; exact hjust hne, hgone⟩
    · refine ho.s.swung hsw hat rfl hw'c ?_ ?_ (fun _ _ e => e)
      · intro b cb pb e1 e2 e3 _ e4
        rw [habs]
        rcases e4 with e4 | e4 | ⟨h', pc', e4, e5, e6⟩
        · exact Or.inl e4
        · exact Or.inr (Or.inl (by rw [habs]; exact e4))
        · cases e4
          refine Or.inr (Or.inr ⟨h, pc, rfl, e5, ?_⟩)
          rw [htodo, hbit] at e6
          rw [htodo, hbit']
          apply Classical.byContradiction
          intro hge
          have hp : pb = pre h rest.length := by
            rw [pre_of_prefix e5]; congr 1; omega
          subst hp
          have i1 := hi.inner_at e1 e2
          rw [hi.inner_at hm hret] at i1
          cases i1
          exact e3 rfl
      · intro cells p' e
        obtain ⟨rfl, e2⟩ := hcells cells p' e
        refine ⟨fun _ => ?_, e2⟩
        have := hjust (by rw [e]; simp)
        rw [← habs] at this
        exact this.exW
    · rintro h' pc' e
      cases e
      refine ⟨hg, hrem _ ⟨h1.swung_above hsw hat (by omega) (by omega), h2, a, ?_⟩⟩
      obtain ⟨c2, f1, -⟩ := hevo.inner a c _ hm
      exact ⟨c2, rfl, f1, fun _ e => absurd e hgone⟩
  have hr := (ho.r h pc rfl).2
  unfold PC.on at hpcon
  split at hpcon
  · exact key _ _ _ hr (fun _ => rfl) rfl (fun _ h => h)
  · exact key _ _ _ hr (fun _ => rfl) rfl (fun _ h => h)
  · cases hpcon

/-! ### Steps of any call -/

/-- A call marks a cell. -/
theorem zonePrune {c : Call K P} (x : Ctx cfg A m c.inv) {parent : Loc} {child : Word} {i : Fin 16} {acc : PAcc} {k : Cont K P} {ok : Prop}
    (hpc : c.pc = .prune parent child i acc k) (hi : PCInv cfg A m c) (ho : ZInv cfg g m I R) (hh : HelpZPC g m R c.pc) :
    ZOut cfg g (tick cfg m weak c.pc).1.bump I R ok (tick cfg m weak c.pc).2 := by
  simp only [PCInv, hpc] at hi
  rw [hpc] at hh
  obtain ⟨hk, a2, cs2, q2, h1, h2, h3, h4, h5⟩ := hi
  obtain ⟨a, cs, q, rfl, hm, hlive, hacc, hcond⟩ := hh
  have ea : a = a2 := by cases h1; rfl
  subst ea
  have ec : cs = cs2 := by rw [hm] at h2; cases h2; rfl
  have eq2 : q = q2 := by rw [hm] at h2; cases h2; rfl
  subst ec
  subst eq2
  obtain ⟨w, hr, hatw, hheld, hok⟩ := x.read (loc := .slot a i) (q := q ++ [i]) ⟨cs, _, hm, rfl, h3⟩
  obtain ⟨c3, p3, hm3, -, rfl⟩ := hatw
  rw [hm] at hm3; cases hm3
  have ho' := ho.condemn x.h i hm hlive
  have hnext := fun acc' => hacc.next (acc' := acc') x.h hm
  have hret : (m.write (cs i).condemn (.slot a i)).bump.retired = m.retired := by rw [write_condemn i hm]; rfl
  have hm1a : (m.write (cs i).condemn (.slot a i)).bump.mem a = some (.inner (upd cs i (cs i).condemn) q) := by
    rw [write_condemn i hm]; simp [Mem.bump]
  simp only [hpc, tick, tickPrune, hr]
  generalize hm1 : m.write (cs i).condemn (.slot a i) = m1 at *
  have hfin : ∀ acc', acc.push m1 i (cs i) = .ok acc' → HelpZ g m1.bump R ⟨some a, false, false⟩ (i.val + 1) acc' := by
    intro acc' hp
    refine ⟨a, _, q, rfl, hm1a, ?_, hnext acc' hp, cond_next hcond⟩
    rw [hret]
    intro e1 e2
    rcases hlive e1 e2 with e | ⟨e, e'⟩
    · exact Or.inl e
    · refine Or.inr ⟨e, fun j => ?_⟩
      by_cases hj : j = i
      · subst hj; rw [upd_same]; rfl
      · rw [upd_other _ _ hj]; exact e' j
  split
  · trivial
  · next acc' hpush =>
    split
    · exact ⟨ho', hfin acc' hpush⟩
    · next hlast =>
      simp only [Bool.false_eq_true, or_self, if_false]
      refine ⟨ho', ?_⟩
      have : i.val + 1 = 16 := by omega
      have h := hfin acc' hpush
      rw [this] at h
      exact h

/-- The CAS of `prune`. -/
theorem zonePruneCas {c : Call K P} (x : Ctx cfg A m c.inv) {parent : Loc} {child : Word} {acc : PAcc} {k : Cont K P}
    (hpc : c.pc = .pruneCas parent child acc k) (hi : PCInv cfg A m c) (ho : ZInv cfg g m I R) (hh : HelpZPC g m R c.pc) :
    ∃ a q cs res, child = ⟨some a, false, false⟩ ∧ (tick cfg m weak c.pc).1.bump.mem a = some (.inner cs q) ∧ (∀ j, (cs j).cond = true) ∧
      (tick cfg m weak c.pc).2 = afterPrune res k ∧ ZInv cfg g (tick cfg m weak c.pc).1.bump I R ∧
      (res = .copy → BelowZ g q → Just cfg ((tick cfg m weak c.pc).1.bump.abs cfg) I q) ∧
      ((tick cfg m weak c.pc).1.bump.retired a ≠ none ∨ (tick cfg m weak c.pc).1.bump.retired a = m.retired a ∧ ¬ m.At parent q child) := by
  simp only [PCInv, hpc] at hi
  rw [hpc] at hh
  obtain ⟨hk, a2, cs2, q2, h1, h2, h3, h4, haccok⟩ := hi
  obtain ⟨a, cs, q, rfl, hm, hlive, hacc, hcond⟩ := hh
  have ea : a = a2 := by cases h1; rfl
  subst ea
  have ec : cs = cs2 := by rw [hm] at h2; cases h2; rfl
  have eq2 : q = q2 := by rw [hm] at h2; cases h2; rfl
  subst ec
  subst eq2
  obtain ⟨w, hr, hatw, hheld, hok⟩ := x.read h4
  have hnn := x.h.fresh _ (Nat.le_refl _)
  have hderef : m.deref a = some (.inner cs q) := by simp [Mem.deref, x.hfree a h3, hm]
  have hall : ∀ j, (cs j).cond = true := fun j => hcond j j.isLt
  by_cases hw : w = ⟨some a, false, false⟩
  · subst hw
    have hret : m.retired a = none := x.h.live _ _ a (x.h.at_follow hatw rfl) rfl
    have fin : ∀ w' new res, (acc.decide.1 = .word w' ∧ new = none ∨
        ∃ cells, acc.decide.1 = .copy cells ∧ w' = ⟨some m.next, false, false⟩ ∧ new = some (.inner cells q)) →
        (res = .copy → new ≠ none) →
        tick cfg m weak c.pc = (m.swing parent w' new (some a), afterPrune res k) →
        ∃ a' q cs res, (⟨some a, false, false⟩ : Word) = ⟨some a', false, false⟩ ∧ (tick cfg m weak c.pc).1.bump.mem a' = some (.inner cs q) ∧ (∀ j, (cs j).cond = true) ∧
          (tick cfg m weak c.pc).2 = afterPrune res k ∧ ZInv cfg g (tick cfg m weak c.pc).1.bump I R ∧
          (res = .copy → BelowZ g q → Just cfg ((tick cfg m weak c.pc).1.bump.abs cfg) I q) ∧
          ((tick cfg m weak c.pc).1.bump.retired a' ≠ none ∨ (tick cfg m weak c.pc).1.bump.retired a' = m.retired a' ∧ ¬ m.At parent q ⟨some a, false, false⟩) := by
      intro w' new res hdec hres htick
      have hsw := swing_swung hatw hnn w' new (some a)
      have hpok := PAcc.decide_ok haccok q
      have hpok' : PruneOK m q cs w' new := by
        rcases hdec with ⟨e1, rfl⟩ | ⟨cells, e1, rfl, rfl⟩
        · rw [e1] at hpok; exact hpok
        · rw [e1] at hpok; exact hpok
      obtain ⟨hinv, habs⟩ := x.h.pruned hatw x.hA rfl rfl rfl hm (fun i => haccok.cond i i.isLt) hpok' hsw
      have hw'c : w'.cond = false := by cases hpok' <;> rfl
      have hcells : ∀ cells p', new = some (.inner cells p') → p' = q ∧ ∀ i, (cells i).cond = false := by
        intro cells p' e
        cases hpok' with
        | null => cases e
        | single => cases e
        | copy => cases e; exact ⟨rfl, fun i => rfl⟩
      have hevo : Evo m (m.swing parent w' new (some a)).bump := hsw.evo x.h hatw rfl (by intro b e; cases e; rfl)
      obtain ⟨cs', f1, f2⟩ := hevo.inner a cs q hm
      have hcs' : ∀ j, (cs' j).cond = true := fun j => by rw [f2 j (hall j)]; exact hall j
      have hgone : (m.swing parent w' new (some a)).bump.retired a ≠ none := by rw [hsw.retired, if_pos rfl]; simp
      rw [htick]
      refine ⟨a, q, cs', res, rfl, f1, hcs', rfl, ?_⟩
      by_cases hb : BelowZ g q
      · rcases hlive hb.1 hret with ⟨h, pc, rfl, hon⟩ | ⟨e, -⟩
        · obtain ⟨z1, z2, z3⟩ := ho.helped x.h x.hA hon hm hb hatw haccok hacc hdec hsw
          exact ⟨z1, fun e _ => z2 (hres e), Or.inl hgone⟩
        · exfalso
          subst e
          exact Nat.lt_irrefl _ hb.2
      · refine ⟨ho.swung x.h hsw hatw rfl hw'c (by intro b e; cases e; rfl) (Or.inl hb) (by intro k _ h; rw [habs]; exact h) ?_, fun _ e => absurd e hb, Or.inl hgone⟩
        intro cells p' e
        obtain ⟨rfl, e2⟩ := hcells cells p' e
        exact ⟨fun e => absurd e hb, e2⟩
    cases hd : acc.decide with
    | mk ins res =>
      cases ins with
      | word w' =>
        refine fin w' none res (Or.inl ⟨by rw [hd], rfl⟩) (fun e => absurd e (decide_word hd)) ?_
        simp [hpc, tick, tickPruneCas, hr, hderef, hd]; rfl
      | copy cells =>
        refine fin ⟨some m.next, false, false⟩ (some (.inner cells q)) res (Or.inr ⟨cells, by rw [hd], rfl, rfl⟩) (by simp) ?_
        simp [hpc, tick, tickPruneCas, hr, hderef, hd]; rfl
  · have htick : tick cfg m weak c.pc = (m, afterPrune .casFail k) := by
      simp [hpc, tick, tickPruneCas, hr, hderef, hw]
    rw [htick]
    refine ⟨a, q, cs, .casFail, rfl, hm, hall, rfl, ho.bump, (by intro e; cases e), Or.inr ⟨rfl, ?_⟩⟩
    intro e
    exact hw (At_unique e hatw).2.symm

/-- Helping: a condemned cell has been found. -/
theorem HelpZ.enter (ho : ZInv cfg g m I R) {a : Nat} {i : Fin 16} {q : List (Fin 16)} {w : Word} (hat : m.At (.slot a i) q w) (hc : w.cond = true)
    {cs : Fin 16 → Word} {p : List (Fin 16)} (hm : m.mem a = some (.inner cs p)) : HelpZ g m R ⟨some a, false, false⟩ 0 PAcc.init := by
  refine ⟨a, cs, p, rfl, hm, ?_, Acc2.init _ cs, by intro j hj; omega⟩
  intro hg hlive
  obtain ⟨c3, p3, g1, g2, g3⟩ := hat
  rw [hm] at g1; cases g1
  exact ho.s.clean a cs p i hm hlive hg (by rw [g3]; exact hc)

theorem HelpZ.bump {child : Word} {n : Nat} {acc : PAcc} (h : HelpZ g m R child n acc) : HelpZ g m.bump R child n acc := by
  obtain ⟨a, c, q, h1, h2, h3, h4, h5⟩ := h
  exact ⟨a, c, q, h1, h2, h3, ⟨h4.1, h4.2, h4.3, h4.4⟩, h5⟩

end Contrie
