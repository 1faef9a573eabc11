import Verif.Proof.CohCmp
import Verif.Proof.Inv
/-
What one step of a call does, read off the code: where the locations it will access next come from, which pointers it
keeps, and what its outcome depends on.
-/
set_option linter.unusedSectionVars false
namespace Contrie
variable {K P : Type} [DecidableEq K]

/-- Locations a (cell, child) pair gives access to. -/
def PairLoc (loc : Loc) (x : Loc × Word) : Prop := loc = x.1 ∨ ∃ a i, x.2.ptr = some a ∧ loc = .slot a i

/-- Locations a continuation may access. -/
def Cont.HasLoc (loc : Loc) : Cont K P → Prop
  | .clean _ _ rest => ∃ x ∈ rest, PairLoc loc x
  | _ => False

/-- Locations a call may access with the pointers it has. -/
def PC.HasLoc (loc : Loc) : PC K P → Prop
  | .get _ _ cur => loc = cur
  | .isEmpty => False
  | .iterNew => False
  | .iterNext levels _ => ∃ x ∈ levels, ∃ a i, x.1.ptr = some a ∧ x.1.data = false ∧ loc = .slot a i
  | .trav _ _ _ _ cur parent => loc = cur ∨ ∃ x, parent = some x ∧ PairLoc loc x
  | .travCas _ _ _ _ cur parent _ _ _ => loc = cur ∨ ∃ x, parent = some x ∧ PairLoc loc x
  | .rem _ _ cur levels => loc = cur ∨ ∃ x ∈ levels, PairLoc loc x
  | .remCas _ _ cur levels _ _ _ => loc = cur ∨ ∃ x ∈ levels, PairLoc loc x
  | .count _ _ parent child rest _ _ => PairLoc loc (parent, child) ∨ ∃ x ∈ rest, PairLoc loc x
  | .prune parent child _ _ k => PairLoc loc (parent, child) ∨ Cont.HasLoc loc k
  | .pruneCas parent child _ k => PairLoc loc (parent, child) ∨ Cont.HasLoc loc k

/-- The word a step loads. -/
def Loads (m : Mem P) (pc : PC K P) (w : Word) : Prop :=
  ∃ ℓ o, pc.access .code = some (ℓ, o) ∧ m.read ℓ = some w

theorem access_hasLoc {pc : PC K P} {ℓ : Loc} {o : LoadOrd} (h : pc.access .code = some (ℓ, o)) :
    ℓ = .root ∨ pc.HasLoc ℓ := by
  cases pc <;> simp only [PC.access] at h
  case get => cases h; exact Or.inr rfl
  case isEmpty => cases h; exact Or.inl rfl
  case iterNew => cases h; exact Or.inl rfl
  case iterNext levels out =>
    split at h
    · cases h
    · next w idx rest =>
      split at h
      · cases h
      · next a hp =>
        split at h
        · cases h
        · next hd =>
          split at h
          · cases h
            exact Or.inr ⟨(w, idx), by simp, a, _, hp, by simpa using hd, rfl⟩
          · cases h
  case trav => cases h; exact Or.inr (Or.inl rfl)
  case travCas => cases h; exact Or.inr (Or.inl rfl)
  case rem => cases h; exact Or.inr (Or.inl rfl)
  case remCas => cases h; exact Or.inr (Or.inl rfl)
  case count =>
    simp only [Option.map_eq_some_iff, Prod.mk.injEq] at h
    obtain ⟨a, h1, h2, -⟩ := h
    exact Or.inr (Or.inl (Or.inr ⟨a, _, h1, h2.symm⟩))
  case prune =>
    simp only [Option.map_eq_some_iff, Prod.mk.injEq] at h
    obtain ⟨a, h1, h2, -⟩ := h
    exact Or.inr (Or.inl (Or.inr ⟨a, _, h1, h2.symm⟩))
  case pruneCas => cases h; exact Or.inr (Or.inl (Or.inl rfl))

section
variable {pc' : PC K P} {ran : Bool} {loc : Loc}

theorem enterPrune_loc {parent : Loc} {child : Word} {k : Cont K P} (h : enterPrune parent child k = .goto pc' ran)
    (hl : pc'.HasLoc loc) : PairLoc loc (parent, child) ∨ Cont.HasLoc loc k := by
  simp only [enterPrune] at h
  split at h
  · cases h
  · split at h <;> cases h
    exact hl

theorem enterClean_loc {deleted : P} {ref : Nat} {levels : List (Loc × Word)}
    (h : (enterClean deleted ref levels : Next K P) = .goto pc' ran) (hl : pc'.HasLoc loc) : ∃ x ∈ levels, PairLoc loc x := by
  cases levels with
  | nil => cases h
  | cons y rest =>
    simp only [enterClean] at h
    split at h <;> cases h
    rcases hl with hl | ⟨x, hx, hl⟩
    · exact ⟨y, by simp, hl⟩
    · exact ⟨x, by simp [hx], hl⟩

theorem afterPrune_loc {r : PruneResult} {k : Cont K P} (h : afterPrune r k = .goto pc' ran) (hl : pc'.HasLoc loc) :
    loc = .root ∨ Cont.HasLoc loc k := by
  cases k with
  | trav st hash mode =>
    cases h
    rcases hl with hl | ⟨x, hx, hl⟩
    · exact Or.inl hl
    · cases hx
  | rem key =>
    cases h
    rcases hl with hl | ⟨x, hx, hl⟩
    · exact Or.inl hl
    · cases hx
  | clean deleted ref rest =>
    simp only [afterPrune] at h
    split at h
    · cases h
    · exact Or.inr (enterClean_loc h hl)
end

/-- Where the locations accessed later come from. -/
theorem tick_locs (cfg : Config K P) (m : Mem P) (weak : Bool) (pc : PC K P) {pc' : PC K P} {ran : Bool}
    (h : (tick cfg m weak pc).2 = .goto pc' ran) {loc : Loc} (hl : pc'.HasLoc loc) :
    loc = .root ∨ pc.HasLoc loc ∨
    ∃ w a i, Loads m pc w ∧ w.ptr = some a ∧ w.data = false ∧ loc = .slot a i := by
  cases pc with
  | get key hash cur =>
    simp only [tick, tickGet] at h
    split at h
    · cases h
    · next node hr =>
      split at h
      · cases h
      · next a hp =>
        split at h
        · split at h
          · cases h
          · split at h <;> cases h
        · next hd => cases h; exact Or.inr (Or.inr ⟨node, a, _, ⟨cur, _, rfl, hr⟩, hp, by simpa using hd, hl⟩)
  | isEmpty => cases h
  | iterNew =>
    simp only [tick, tickIterNew] at h
    cases h
    obtain ⟨x, hx, a, i, h1, h2, h3⟩ := hl
    simp only [List.mem_singleton] at hx; subst hx
    exact Or.inr (Or.inr ⟨m.root, a, i, ⟨.root, _, rfl, rfl⟩, h1, h2, h3⟩)
  | iterNext levels out =>
    have sub : ∀ {l : List (Word × Nat)} {out' : List P}, (∀ x ∈ l, ∃ y ∈ levels, x.1 = y.1) →
        (PC.iterNext l out' : PC K P).HasLoc loc → (PC.iterNext levels out : PC K P).HasLoc loc := by
      rintro l out' hs ⟨x, hx, a, i, h1, h2, h3⟩
      obtain ⟨y, hy, e⟩ := hs x hx
      exact ⟨y, hy, a, i, by rw [← e]; exact h1, by rw [← e]; exact h2, h3⟩
    simp only [tick, tickIterNext] at h
    split at h
    · cases h
    · next w idx rest =>
      have tl : ∀ x ∈ rest, ∃ y ∈ (w, idx) :: rest, x.1 = y.1 := fun x hx => ⟨x, by simp [hx], rfl⟩
      split at h
      · cases h; exact Or.inr (Or.inl (sub tl hl))
      · next a hp =>
        split at h
        · split at h
          · cases h
          · split at h <;> cases h
            · refine Or.inr (Or.inl (sub ?_ hl))
              intro x hx
              simp only [List.mem_cons] at hx
              rcases hx with rfl | hx
              · exact ⟨(w, idx), by simp, rfl⟩
              · exact tl x hx
            · exact Or.inr (Or.inl (sub tl hl))
        · next hd =>
          split at h
          · next hi =>
            split at h
            · cases h
            · next w' hr =>
              split at h <;> cases h
              obtain ⟨x, hx, b, j, h1, h2, h3⟩ := hl
              simp only [List.mem_cons] at hx
              rcases hx with rfl | rfl | hx
              · refine Or.inr (Or.inr ⟨w', b, j, ⟨.slot a ⟨idx, hi⟩, .acquire, ?_, hr⟩, h1, h2, h3⟩)
                simp only [PC.access, hp, hd]
                rw [dif_pos hi]; rfl
              · exact Or.inr (Or.inl ⟨(w, idx), by simp, b, j, h1, h2, h3⟩)
              · exact Or.inr (Or.inl ⟨x, by simp [hx], b, j, h1, h2, h3⟩)
          · cases h; exact Or.inr (Or.inl (sub tl hl))
  | trav st hash mode shift cur parent =>
    simp only [tick, tickTrav] at h
    split at h
    · cases h
    · next node hr =>
      split at h
      · split at h
        · cases h
        · next p child =>
          rcases enterPrune_loc h hl with h1 | h1
          · exact Or.inr (Or.inl (Or.inr ⟨_, rfl, h1⟩))
          · exact h1.elim
      · split at h
        · cases h; exact Or.inr (Or.inl hl)
        · next a hp =>
          split at h
          · split at h
            · cases h
            · cases h
            · split at h
              · split at h
                · cases h
                · cases h; exact Or.inr (Or.inl hl)
              · split at h
                · cases h; exact Or.inr (Or.inl hl)
                · simp only [finishTrav] at h
                  split at h
                  · cases h
                  · split at h <;> cases h
          · next hd =>
            split at h
            · cases h
            · cases h
              rcases hl with hl | ⟨x, hx, hl⟩
              · exact Or.inr (Or.inr ⟨node, a, _, ⟨cur, _, rfl, hr⟩, hp, by simpa using hd, hl⟩)
              · cases hx
                rcases hl with hl | ⟨b, j, h1, h2⟩
                · exact Or.inr (Or.inl (Or.inl hl))
                · exact Or.inr (Or.inr ⟨node, b, j, ⟨cur, _, rfl, hr⟩, h1, by simpa using hd, h2⟩)
  | travCas st hash mode shift cur parent node new kind =>
    have fin : ∀ {m1 : Mem P} {r : Option (ExistingOrNew P)} {refs : List Nat},
        ((m1, finishTrav mode r refs) : Mem P × Next K P).2 = .goto pc' ran → False := by
      intro m1 r refs h
      simp only [finishTrav] at h
      split at h
      · cases h
      · split at h <;> cases h
    simp only [tick, tickTravCas] at h
    split at h
    · cases h
    · split at h
      · split at h
        · cases h; exact Or.inr (Or.inl hl)
        · split at h <;> exact (fin h).elim
        · split at h
          · cases h
          · split at h
            · cases h
            · split at h <;> exact (fin h).elim
      · cases h; exact Or.inr (Or.inl hl)
  | rem key shift cur levels =>
    simp only [tick, tickRem] at h
    split at h
    · cases h
    · next node hr =>
      split at h
      · cases h
      · next a hp =>
        split at h
        · split at h
          · cases h
          · next p child rest =>
            rcases enterPrune_loc h hl with h1 | h1
            · exact Or.inr (Or.inl (Or.inr ⟨_, by simp, h1⟩))
            · exact h1.elim
        · split at h
          · split at h
            · cases h
            · split at h
              · cases h
              · cases h; exact Or.inr (Or.inl hl)
          · next hd =>
            split at h
            · cases h
            · split at h
              · cases h
              · cases h
                rcases hl with hl | ⟨x, hx, hl⟩
                · exact Or.inr (Or.inr ⟨node, a, _, ⟨cur, _, rfl, hr⟩, hp, by simpa using hd, hl⟩)
                · simp only [List.mem_cons] at hx
                  rcases hx with rfl | hx
                  · rcases hl with hl | ⟨b, j, h1, h2⟩
                    · exact Or.inr (Or.inl (Or.inl hl))
                    · exact Or.inr (Or.inr ⟨node, b, j, ⟨cur, _, rfl, hr⟩, h1, by simpa using hd, h2⟩)
                  · exact Or.inr (Or.inl (Or.inr ⟨x, hx, hl⟩))
  | remCas key shift cur levels node new deleted =>
    simp only [tick, tickRemCas] at h
    split at h
    · cases h
    · split at h
      · split at h
        · cases h
        · split at h
          · cases h
          · exact Or.inr (Or.inl (Or.inr (enterClean_loc h hl)))
      · cases h; exact Or.inr (Or.inl hl)
  | count deleted ref parent child rest i cnt =>
    simp only [tick, tickCount] at h
    split at h
    · cases h
    · split at h
      · cases h
      · next w hw =>
        generalize (if w.ptr.isSome then cnt + 1 else cnt) = cnt' at h
        split at h
        · cases h; exact Or.inr (Or.inl hl)
        · split at h
          · cases h
          · exact Or.inr (Or.inl (enterPrune_loc h hl))
  | prune parent child i acc k =>
    simp only [tick, tickPrune] at h
    split at h
    · cases h
    · split at h
      · cases h
      · split at h
        · cases h
        · split at h
          · cases h; exact Or.inr (Or.inl hl)
          · split at h <;> cases h
            exact Or.inr (Or.inl hl)
  | pruneCas parent child acc k =>
    simp only [tick, tickPruneCas] at h
    split at h
    · cases h
    · split at h
      · split at h
        · rcases afterPrune_loc h hl with h1 | h1
          · exact Or.inl h1
          · exact Or.inr (Or.inl (Or.inr h1))
        · rcases afterPrune_loc h hl with h1 | h1
          · exact Or.inl h1
          · exact Or.inr (Or.inl (Or.inr h1))
      · cases h

/-! ### Pointers -/

section
variable {pc' : PC K P} {ran : Bool} {a : Nat}

/-- Pointers in a pair. -/
theorem enterPrune_holds {parent : Loc} {child : Word} {k : Cont K P} (h : enterPrune parent child k = .goto pc' ran)
    (hl : pc'.Holds a) : Cont.Holds a k ∨ parent.node = some a ∨ child.ptr = some a := by
  simp only [enterPrune] at h
  split at h
  · cases h
  · split at h <;> cases h
    rcases hl with hl | hl | ⟨i, hl⟩ | ⟨w, hl, -⟩
    · exact Or.inl hl
    · exact Or.inr hl
    · cases hl
    · cases hl

theorem enterClean_holds {deleted : P} {ref : Nat} {levels : List (Loc × Word)}
    (h : (enterClean deleted ref levels : Next K P) = .goto pc' ran) (hl : pc'.Holds a) :
    ref = a ∨ ∃ x ∈ levels, x.1.node = some a ∨ x.2.ptr = some a := by
  cases levels with
  | nil => cases h
  | cons y rest =>
    simp only [enterClean] at h
    split at h <;> cases h
    rcases hl with (hl | ⟨x, hx, hl⟩) | hl
    · exact Or.inl hl
    · exact Or.inr ⟨x, by simp [hx], hl⟩
    · exact Or.inr ⟨y, by simp, hl⟩

theorem afterPrune_holds {r : PruneResult} {k : Cont K P} (h : afterPrune r k = .goto pc' ran) (hl : pc'.Holds a) :
    Cont.Holds a k := by
  cases k with
  | trav st hash mode =>
    cases h
    rcases hl with hl | ⟨x, hx, hl⟩
    · cases hl
    · cases hx
  | rem key =>
    cases h
    rcases hl with hl | ⟨x, hx, hl⟩
    · cases hl
    · cases hx
  | clean deleted ref rest =>
    simp only [afterPrune] at h
    split at h
    · cases h
    · exact enterClean_holds h hl

theorem enterClean_ret {deleted : P} {ref : Nat} {levels : List (Loc × Word)} {r : Res P} {refs : List Nat}
    (h : (enterClean deleted ref levels : Next K P) = .ret r refs) : r = .op (.opt (some deleted)) ∧ refs = [ref] := by
  cases levels with
  | nil => cases h; exact ⟨rfl, rfl⟩
  | cons y rest => simp only [enterClean] at h; split at h <;> cases h

theorem enterPrune_ret {parent : Loc} {child : Word} {k : Cont K P} {r : Res P} {refs : List Nat}
    (h : enterPrune parent child k = .ret r refs) : False := by
  simp only [enterPrune] at h
  split at h
  · cases h
  · split at h <;> cases h

theorem afterPrune_ret {pr : PruneResult} {k : Cont K P} {r : Res P} {refs : List Nat}
    (h : afterPrune pr k = .ret r refs) : ∃ deleted ref rest, k = .clean deleted ref rest ∧
      r = .op (.opt (some deleted)) ∧ refs = [ref] := by
  cases k with
  | trav st hash mode => cases h
  | rem key => cases h
  | clean deleted ref rest =>
    refine ⟨deleted, ref, rest, rfl, ?_⟩
    simp only [afterPrune] at h
    split at h
    · cases h; exact ⟨rfl, rfl⟩
    · exact enterClean_ret h

theorem push_holds {m : Mem P} {acc acc' : PAcc} {i : Fin 16} {gc : Word} (h : acc.push m i gc = .ok acc') {a : Nat}
    (hl : (∃ j, (acc'.newChild j).ptr = some a) ∨ ∃ w, acc'.lastLeaf = some w ∧ w.ptr = some a) :
    ((∃ j, (acc.newChild j).ptr = some a) ∨ ∃ w, acc.lastLeaf = some w ∧ w.ptr = some a) ∨ gc.ptr = some a := by
  have cell : ∀ j, ((upd acc.newChild i gc.erase) j).ptr = some a → (∃ j, (acc.newChild j).ptr = some a) ∨ gc.ptr = some a := by
    intro j hj
    by_cases e : j = i
    · subst e; rw [upd_same] at hj; exact Or.inr hj
    · rw [upd_other _ _ e] at hj; exact Or.inl ⟨j, hj⟩
  simp only [PAcc.push] at h
  split at h
  · cases h
    rcases hl with ⟨j, hl⟩ | hl
    · rcases cell j hl with h | h
      · exact Or.inl (Or.inl h)
      · exact Or.inr h
    · exact Or.inl (Or.inr hl)
  · split at h
    · split at h
      · cases h
      · cases h
        rcases hl with ⟨j, hl⟩ | ⟨w, hl, hw⟩
        · rcases cell j hl with h | h
          · exact Or.inl (Or.inl h)
          · exact Or.inr h
        · cases hl; exact Or.inr hw
    · cases h
      rcases hl with ⟨j, hl⟩ | hl
      · rcases cell j hl with h | h
        · exact Or.inl (Or.inl h)
        · exact Or.inr h
      · exact Or.inl (Or.inr hl)
end

/-- Where the pointers held later come from. -/
theorem tick_holds (cfg : Config K P) (m : Mem P) (weak : Bool) (pc : PC K P) {pc' : PC K P} {ran : Bool}
    (h : (tick cfg m weak pc).2 = .goto pc' ran) {a : Nat} (hl : pc'.Holds a) :
    pc.Holds a ∨ ∃ w, Loads m pc w ∧ w.ptr = some a := by
  have nd : ∀ {b : Nat} {i : Fin 16}, (Loc.slot b i).node = some a → b = a := by intro b i h; cases h; rfl
  cases pc with
  | get key hash cur =>
    simp only [tick, tickGet] at h
    split at h
    · cases h
    · next node hr =>
      split at h
      · cases h
      · next b hp =>
        split at h
        · split at h
          · cases h
          · split at h <;> cases h
        · cases h; exact Or.inr ⟨node, ⟨cur, _, rfl, hr⟩, by rw [hp, nd hl]⟩
  | isEmpty => cases h
  | iterNew =>
    simp only [tick, tickIterNew] at h
    cases h
    obtain ⟨x, hx, h1⟩ := hl
    simp only [List.mem_singleton] at hx; subst hx
    exact Or.inr ⟨m.root, ⟨.root, _, rfl, rfl⟩, h1⟩
  | iterNext levels out =>
    simp only [tick, tickIterNext] at h
    split at h
    · cases h
    · next w idx rest =>
      have tl : (∃ x ∈ rest, x.1.ptr = some a) → (PC.iterNext ((w, idx) :: rest) out : PC K P).Holds a :=
        fun ⟨x, hx, h1⟩ => ⟨x, by simp [hx], h1⟩
      split at h
      · cases h; exact Or.inl (tl hl)
      · next b hp =>
        split at h
        · split at h
          · cases h
          · split at h <;> cases h
            · obtain ⟨x, hx, h1⟩ := hl
              simp only [List.mem_cons] at hx
              rcases hx with rfl | hx
              · exact Or.inl ⟨(w, idx), by simp, h1⟩
              · exact Or.inl (tl ⟨x, hx, h1⟩)
            · exact Or.inl (tl hl)
        · next hd =>
          split at h
          · next hi =>
            split at h
            · cases h
            · next w' hr =>
              split at h <;> cases h
              obtain ⟨x, hx, h1⟩ := hl
              simp only [List.mem_cons] at hx
              rcases hx with rfl | rfl | hx
              · refine Or.inr ⟨w', ⟨.slot b ⟨idx, hi⟩, .acquire, ?_, hr⟩, h1⟩
                simp only [PC.access, hp, hd]
                rw [dif_pos hi]; rfl
              · exact Or.inl ⟨(w, idx), by simp, h1⟩
              · exact Or.inl (tl ⟨x, hx, h1⟩)
          · cases h; exact Or.inl (tl hl)
  | trav st hash mode shift cur parent =>
    simp only [tick, tickTrav] at h
    split at h
    · cases h
    · next node hr =>
      have ld : Loads m (PC.trav st hash mode shift cur parent : PC K P) node := ⟨cur, _, rfl, hr⟩
      split at h
      · split at h
        · cases h
        · next p child =>
          rcases enterPrune_holds h hl with h1 | h1
          · exact h1.elim
          · exact Or.inl (Or.inr ⟨_, rfl, h1⟩)
      · split at h
        · cases h
          rcases hl with hl | hl | ⟨c, p, i, hl, -⟩
          · exact Or.inl hl
          · exact Or.inr ⟨node, ld, hl⟩
          · cases hl
        · next b hp =>
          split at h
          · split at h
            · cases h
            · cases h
            · split at h
              · split at h
                · cases h
                · cases h
                  rcases hl with hl | hl | ⟨c, p, i, hl, hc⟩
                  · exact Or.inl hl
                  · exact Or.inr ⟨node, ld, hl⟩
                  · cases hl
                    refine Or.inr ⟨node, ld, ?_⟩
                    simp only [upd] at hc
                    split at hc
                    · exact hc
                    · cases hc
              · split at h
                · cases h
                  rcases hl with hl | hl | ⟨c, p, i, hl, -⟩
                  · exact Or.inl hl
                  · exact Or.inr ⟨node, ld, hl⟩
                  · cases hl
                · simp only [finishTrav] at h
                  split at h
                  · cases h
                  · split at h <;> cases h
          · split at h
            · cases h
            · cases h
              rcases hl with hl | ⟨x, hx, hl⟩
              · exact Or.inr ⟨node, ld, by rw [hp, nd hl]⟩
              · cases hx
                rcases hl with hl | hl
                · exact Or.inl (Or.inl hl)
                · exact Or.inr ⟨node, ld, hl⟩
  | travCas st hash mode shift cur parent node new kind =>
    have fin : ∀ {m1 : Mem P} {r : Option (ExistingOrNew P)} {refs : List Nat},
        ((m1, finishTrav mode r refs) : Mem P × Next K P).2 = .goto pc' ran → False := by
      intro m1 r refs h
      simp only [finishTrav] at h
      split at h
      · cases h
      · split at h <;> cases h
    simp only [tick, tickTravCas] at h
    split at h
    · cases h
    · split at h
      · split at h
        · cases h; exact Or.inl (Or.inl hl)
        · split at h <;> exact (fin h).elim
        · split at h
          · cases h
          · split at h
            · cases h
            · split at h <;> exact (fin h).elim
      · cases h; exact Or.inl (Or.inl hl)
  | rem key shift cur levels =>
    simp only [tick, tickRem] at h
    split at h
    · cases h
    · next node hr =>
      have ld : Loads m (PC.rem key shift cur levels : PC K P) node := ⟨cur, _, rfl, hr⟩
      split at h
      · cases h
      · next b hp =>
        split at h
        · split at h
          · cases h
          · next p child rest =>
            rcases enterPrune_holds h hl with h1 | h1
            · exact h1.elim
            · exact Or.inl (Or.inr ⟨(p, child), List.mem_cons_self, h1⟩)
        · split at h
          · split at h
            · cases h
            · split at h
              · cases h
              · cases h
                rcases hl with hl | hl
                · exact Or.inl hl
                · exact Or.inr ⟨node, ld, hl⟩
          · split at h
            · cases h
            · split at h
              · cases h
              · cases h
                rcases hl with hl | ⟨x, hx, hl⟩
                · exact Or.inr ⟨node, ld, by rw [hp, nd hl]⟩
                · simp only [List.mem_cons] at hx
                  rcases hx with rfl | hx
                  · rcases hl with hl | hl
                    · exact Or.inl (Or.inl hl)
                    · exact Or.inr ⟨node, ld, hl⟩
                  · exact Or.inl (Or.inr ⟨x, hx, hl⟩)
  | remCas key shift cur levels node new deleted =>
    simp only [tick, tickRemCas] at h
    split at h
    · cases h
    · split at h
      · split at h
        · cases h
        · next old ho =>
          split at h
          · cases h
          · rcases enterClean_holds h hl with h1 | h1
            · exact Or.inl (Or.inr (by rw [ho, h1]))
            · exact Or.inl (Or.inl (Or.inr h1))
      · cases h; exact Or.inl (Or.inl hl)
  | count deleted ref parent child rest i cnt =>
    simp only [tick, tickCount] at h
    split at h
    · cases h
    · split at h
      · cases h
      · next w hw =>
        generalize (if w.ptr.isSome then cnt + 1 else cnt) = cnt' at h
        split at h
        · cases h; exact Or.inl hl
        · split at h
          · cases h
          · exact Or.inl (enterPrune_holds h hl)
  | prune parent child i acc k =>
    simp only [tick, tickPrune] at h
    split at h
    · cases h
    · next b hp =>
      split at h
      · cases h
      · next gc hr =>
        have ld : Loads m (PC.prune parent child i acc k : PC K P) gc :=
          ⟨.slot b i, .acquire, by simp [PC.access, hp, Orders.code], hr⟩
        split at h
        · cases h
        · next acc' hpush =>
          have key : Cont.Holds a k ∨ (parent.node = some a ∨ child.ptr = some a) ∨
              (∃ i, (acc'.newChild i).ptr = some a) ∨ (∃ w, acc'.lastLeaf = some w ∧ w.ptr = some a) →
              (PC.prune parent child i acc k : PC K P).Holds a ∨
              ∃ w, Loads m (PC.prune parent child i acc k : PC K P) w ∧ w.ptr = some a := by
            rintro (h1 | h1 | h1)
            · exact Or.inl (Or.inl h1)
            · exact Or.inl (Or.inr (Or.inl h1))
            · rcases push_holds hpush h1 with h2 | h2
              · exact Or.inl (Or.inr (Or.inr h2))
              · exact Or.inr ⟨gc, ld, h2⟩
          split at h
          · cases h; exact key hl
          · split at h <;> cases h
            exact key hl
  | pruneCas parent child acc k =>
    simp only [tick, tickPruneCas] at h
    split at h
    · cases h
    · split at h
      · split at h
        · exact Or.inl (Or.inl (afterPrune_holds h hl))
        · exact Or.inl (Or.inl (afterPrune_holds h hl))
      · cases h

/-- What a returned reference points into: something the call had, or the node it has just created. -/
theorem tick_refs (cfg : Config K P) (m : Mem P) (weak : Bool) (pc : PC K P) {r : Res P} {refs : List Nat}
    (h : (tick cfg m weak pc).2 = .ret r refs) {a : Nat} (hl : a ∈ refs) :
    pc.Holds a ∨ (∃ w, Loads m pc w ∧ w.ptr = some a) ∨ (a = m.next ∧ pc.writes m weak = true) := by
  cases pc with
  | get key hash cur =>
    simp only [tick, tickGet] at h
    split at h
    · cases h
    · next node hr =>
      split at h
      · cases h; cases hl
      · next b hp =>
        split at h
        · split at h
          · cases h
          · split at h <;> cases h
            · cases hl
            · simp only [List.mem_singleton] at hl; subst hl
              exact Or.inr (Or.inl ⟨node, ⟨cur, _, rfl, hr⟩, hp⟩)
        · cases h
  | isEmpty => simp only [tick] at h; cases h; cases hl
  | iterNew => simp only [tick, tickIterNew] at h; cases h
  | iterNext levels out =>
    simp only [tick, tickIterNext] at h
    split at h
    · cases h; cases hl
    · split at h
      · cases h
      · split at h
        · split at h
          · cases h
          · split at h <;> cases h
        · split at h
          · split at h
            · cases h
            · split at h <;> cases h
          · cases h
  | trav st hash mode shift cur parent =>
    simp only [tick, tickTrav] at h
    split at h
    · cases h
    · next node hr =>
      have ld : Loads m (PC.trav st hash mode shift cur parent : PC K P) node := ⟨cur, _, rfl, hr⟩
      split at h
      · split at h
        · cases h
        · exact (enterPrune_ret h).elim
      · split at h
        · cases h
        · next b hp =>
          split at h
          · split at h
            · cases h
            · cases h
            · split at h
              · split at h <;> cases h
              · split at h
                · cases h
                · have : refs = [b] := by
                    simp only [finishTrav] at h
                    split at h
                    · cases h; rfl
                    · split at h <;> cases h
                      rfl
                  subst this
                  simp only [List.mem_singleton] at hl; subst hl
                  exact Or.inr (Or.inl ⟨node, ld, hp⟩)
          · split at h <;> cases h
  | travCas st hash mode shift cur parent node new kind =>
    have fin : ∀ {m1 : Mem P} {x : Option (ExistingOrNew P)} {refs' : List Nat},
        ((m1, finishTrav mode x refs') : Mem P × Next K P).2 = .ret r refs → refs = refs' := by
      intro m1 x refs' h
      simp only [finishTrav] at h
      split at h
      · cases h; rfl
      · split at h <;> cases h
        rfl
    simp only [tick, tickTravCas] at h
    split at h
    · cases h
    · next w hr =>
      split at h
      · next hw =>
        have wr : (PC.travCas st hash mode shift cur parent node new kind : PC K P).writes m weak = true := by
          simp [PC.writes, PC.access, PC.stores, hr, hw]
        split at h
        · cases h
        · split at h
          · have := fin h; subst this; cases hl
          · have := fin h; subst this
            simp only [List.mem_singleton] at hl
            exact Or.inr (Or.inr ⟨hl, wr⟩)
        · split at h
          · cases h
          · next old ho =>
            split at h
            · cases h
            · split at h
              · have := fin h; subst this
                simp only [List.mem_singleton] at hl
                exact Or.inr (Or.inr ⟨hl, wr⟩)
              · have := fin h; subst this
                simp only [List.mem_singleton] at hl
                exact Or.inl (Or.inr (Or.inl (by rw [ho, hl])))
              · have := fin h; subst this; cases hl
      · cases h
  | rem key shift cur levels =>
    simp only [tick, tickRem] at h
    split at h
    · cases h
    · split at h
      · cases h; cases hl
      · split at h
        · split at h
          · cases h
          · exact (enterPrune_ret h).elim
        · split at h
          · split at h
            · cases h
            · split at h <;> cases h
              cases hl
          · split at h
            · cases h
            · split at h <;> cases h
  | remCas key shift cur levels node new deleted =>
    simp only [tick, tickRemCas] at h
    split at h
    · cases h
    · split at h
      · split at h
        · cases h
        · next old ho =>
          split at h
          · cases h
          · obtain ⟨-, e⟩ := enterClean_ret h
            subst e
            simp only [List.mem_singleton] at hl
            exact Or.inl (Or.inr (by rw [ho, hl]))
      · cases h
  | count deleted ref parent child rest i cnt =>
    simp only [tick, tickCount] at h
    split at h
    · cases h
    · split at h
      · cases h
      · next w hw =>
        generalize (if w.ptr.isSome then cnt + 1 else cnt) = cnt' at h
        split at h
        · cases h
        · split at h
          · cases h
            simp only [List.mem_singleton] at hl
            exact Or.inl (Or.inl (Or.inl hl.symm))
          · exact (enterPrune_ret h).elim
  | prune parent child i acc k =>
    simp only [tick, tickPrune] at h
    split at h
    · cases h
    · split at h
      · cases h
      · split at h
        · cases h
        · split at h
          · cases h
          · split at h <;> cases h
  | pruneCas parent child acc k =>
    have key : ∀ {pr : PruneResult}, afterPrune pr k = .ret r refs → (PC.pruneCas parent child acc k : PC K P).Holds a := by
      intro pr h
      obtain ⟨d, ref, rest, e1, -, e3⟩ := afterPrune_ret h
      subst e1 e3
      simp only [List.mem_singleton] at hl
      exact Or.inl (Or.inl hl.symm)
    simp only [tick, tickPruneCas] at h
    split at h
    · cases h
    · split at h
      · split at h
        · exact Or.inl (key h)
        · exact Or.inl (key h)
      · cases h

/-! ### What the outcome depends on -/

/-- A step that stores nothing leaves the memory alone. -/
theorem tick_quiet (cfg : Config K P) (m : Mem P) (weak : Bool) {pc : PC K P} (hw : pc.writes m weak = false) :
    (tick cfg m weak pc).1 = m := by
  cases pc with
  | travCas st hash mode shift cur parent node new kind =>
    simp only [tick, tickTravCas]
    cases hr : m.read cur with
    | none => rfl
    | some w =>
      have : ¬ (w = node ∧ weak = false) := by
        intro e
        simp [PC.writes, PC.access, PC.stores, hr, e] at hw
      simp only [if_neg this]
  | remCas key shift cur levels node new deleted =>
    simp only [tick, tickRemCas]
    cases hr : m.read cur with
    | none => rfl
    | some w =>
      have : ¬ (w = node ∧ weak = false) := by
        intro e
        simp [PC.writes, PC.access, PC.stores, hr, e] at hw
      simp only [if_neg this]
  | prune parent child i acc k =>
    simp only [tick, tickPrune]
    cases hp : child.ptr with
    | none => rfl
    | some a =>
      cases hr : m.read (.slot a i) with
      | none => simp only [hr]
      | some w => simp [PC.writes, PC.access, PC.stores, hp, hr] at hw
  | pruneCas parent child acc k =>
    simp only [tick, tickPruneCas]
    cases hp : child.ptr with
    | none => rfl
    | some a =>
      simp only
      split
      · next w _ _ hr _ =>
        have : ¬ w = child := by
          intro e
          simp [PC.writes, PC.access, PC.stores, hr, e] at hw
        simp only [if_neg this]
      · rfl
  | _ => rfl

/-! ### Destroyed nodes -/

/-- The memory with nothing destroyed. -/
def Mem.thaw (m : Mem P) : Mem P := { m with freed := fun _ => false }

@[simp] theorem thaw_mem (m : Mem P) : m.thaw.mem = m.mem := rfl
@[simp] theorem thaw_retired (m : Mem P) : m.thaw.retired = m.retired := rfl
@[simp] theorem thaw_clock (m : Mem P) : m.thaw.clock = m.clock := rfl
@[simp] theorem thaw_root (m : Mem P) : m.thaw.root = m.root := rfl
@[simp] theorem thaw_next (m : Mem P) : m.thaw.next = m.next := rfl
@[simp] theorem thaw_freed (m : Mem P) (a : Nat) : m.thaw.freed a = false := rfl
@[simp] theorem thaw_bump (m : Mem P) : m.bump.thaw = m.thaw.bump := rfl
@[simp] theorem thaw_alloc (m : Mem P) (n : Node P) : (m.alloc n).thaw = m.thaw.alloc n := rfl
@[simp] theorem thaw_retire (m : Mem P) (a : Nat) : (m.retire a).thaw = m.thaw.retire a := rfl
@[simp] theorem thaw_write (m : Mem P) (w : Word) (ℓ : Loc) : (m.write w ℓ).thaw = m.thaw.write w ℓ := by
  cases ℓ with
  | root => rfl
  | slot a i => simp only [Mem.write, thaw_mem]; split <;> rfl

theorem thaw_deref {m : Mem P} {a : Nat} (h : m.freed a = false) : m.deref a = m.thaw.deref a := by
  simp [Mem.deref, h]

theorem thaw_read {m : Mem P} {ℓ : Loc} (h : ∀ a, ℓ.node = some a → m.freed a = false) : m.read ℓ = m.thaw.read ℓ := by
  cases ℓ with
  | root => rfl
  | slot a i => simp only [Mem.read]; rw [thaw_deref (h a rfl)]

theorem thaw_loadData {m : Mem P} {w : Word} (h : ∀ a, w.ptr = some a → m.freed a = false) :
    m.loadData w = m.thaw.loadData w := by
  simp only [Mem.loadData]
  split
  · rfl
  · split
    · rfl
    · next a hp => rw [thaw_deref (h a hp)]

/-- What a step dereferences is in order. -/
structure Intact (m : Mem P) (pc : PC K P) : Prop where
  held : ∀ a, pc.Holds a → m.freed a = false
  loaded : ∀ w a, Loads m.thaw pc w → w.ptr = some a → m.freed a = false

theorem access_holds {pc : PC K P} {ℓ : Loc} {o : LoadOrd} (h : pc.access .code = some (ℓ, o)) {a : Nat}
    (hn : ℓ.node = some a) : pc.Holds a := by
  cases pc <;> simp only [PC.access] at h
  case get => cases h; exact hn
  case isEmpty => cases h; cases hn
  case iterNew => cases h; cases hn
  case iterNext levels out =>
    split at h
    · cases h
    · next w idx rest =>
      split at h
      · cases h
      · next a hp =>
        split at h
        · cases h
        · split at h
          · cases h; cases hn
            exact ⟨(w, idx), by simp, hp⟩
          · cases h
  case trav => cases h; exact Or.inl hn
  case travCas => cases h; exact Or.inl (Or.inl hn)
  case rem => cases h; exact Or.inl hn
  case remCas => cases h; exact Or.inl (Or.inl hn)
  case count =>
    simp only [Option.map_eq_some_iff, Prod.mk.injEq] at h
    obtain ⟨b, h1, h2, -⟩ := h
    subst h2; cases hn
    exact Or.inr (Or.inr h1)
  case prune =>
    simp only [Option.map_eq_some_iff, Prod.mk.injEq] at h
    obtain ⟨b, h1, h2, -⟩ := h
    subst h2; cases hn
    exact Or.inr (Or.inl (Or.inr h1))
  case pruneCas => cases h; exact Or.inr (Or.inl (Or.inl hn))

theorem Intact.read {m : Mem P} {pc : PC K P} (h : Intact m pc) {ℓ : Loc} {o : LoadOrd}
    (ha : pc.access .code = some (ℓ, o)) : m.read ℓ = m.thaw.read ℓ :=
  thaw_read (fun _ hn => h.held _ (access_holds ha hn))

/-- A step which dereferences nothing destroyed is not affected by what is destroyed. -/
theorem tick_thaw (cfg : Config K P) {m : Mem P} (weak : Bool) {pc : PC K P} (h : Intact m pc) :
    (tick cfg m weak pc).2 = (tick cfg m.thaw weak pc).2 ∧
    (tick cfg m weak pc).1.thaw = (tick cfg m.thaw weak pc).1 := by
  have ldd : ∀ w, Loads m.thaw pc w → m.loadData w = m.thaw.loadData w := fun w hw =>
    thaw_loadData (fun a ha => h.loaded w a hw ha)
  cases pc with
  | get key hash cur =>
    have h1 := h.read (ℓ := cur) rfl
    refine ⟨?_, rfl⟩
    simp only [tick, tickGet]
    cases hr : m.thaw.read cur with
    | none => rw [h1, hr]
    | some node =>
      rw [h1, hr]
      simp only
      rw [ldd node ⟨cur, _, rfl, hr⟩]
  | isEmpty => exact ⟨rfl, rfl⟩
  | iterNew => exact ⟨rfl, rfl⟩
  | iterNext levels out =>
    refine ⟨?_, rfl⟩
    cases levels with
    | nil => rfl
    | cons x rest =>
      obtain ⟨w, idx⟩ := x
      simp only [tick, tickIterNext]
      cases hp : w.ptr with
      | none => rfl
      | some a =>
        have hfa : m.freed a = false := h.held a ⟨(w, idx), by simp, hp⟩
        simp only
        rw [thaw_loadData (m := m) (w := w) (fun b hb => by rw [hp] at hb; cases hb; exact hfa)]
        split
        · rfl
        · split
          · next hi => rw [thaw_read (m := m) (ℓ := .slot a ⟨idx, hi⟩) (fun b hb => by cases hb; exact hfa)]
          · rfl
  | trav st hash mode shift cur parent =>
    have h1 := h.read (ℓ := cur) rfl
    refine ⟨?_, rfl⟩
    simp only [tick, tickTrav]
    cases hr : m.thaw.read cur with
    | none => rw [h1, hr]
    | some node =>
      rw [h1, hr]
      simp only
      rw [ldd node ⟨cur, _, rfl, hr⟩]
  | travCas st hash mode shift cur parent node new kind =>
    have h1 := h.read (ℓ := cur) rfl
    simp only [tick, tickTravCas]
    rw [h1]
    split
    · exact ⟨rfl, rfl⟩
    · split
      · cases kind with
        | fresh => cases mode <;> exact ⟨rfl, by simp⟩
        | split => exact ⟨rfl, by simp⟩
        | replace found =>
          simp only
          split
          · exact ⟨rfl, by simp⟩
          · split
            · exact ⟨rfl, by simp⟩
            · cases found <;> cases mode <;> exact ⟨rfl, by simp⟩
      · exact ⟨rfl, rfl⟩
  | rem key shift cur levels =>
    have h1 := h.read (ℓ := cur) rfl
    refine ⟨?_, rfl⟩
    simp only [tick, tickRem]
    cases hr : m.thaw.read cur with
    | none => rw [h1, hr]
    | some node =>
      rw [h1, hr]
      simp only
      rw [ldd node ⟨cur, _, rfl, hr⟩]
  | remCas key shift cur levels node new deleted =>
    have h1 := h.read (ℓ := cur) rfl
    simp only [tick, tickRemCas]
    rw [h1]
    split
    · exact ⟨rfl, rfl⟩
    · split
      · split
        · cases new <;> exact ⟨rfl, by simp⟩
        · split
          · cases new <;> exact ⟨rfl, by simp⟩
          · cases new <;> exact ⟨rfl, by simp⟩
      · exact ⟨rfl, rfl⟩
  | count deleted ref parent child rest i cnt =>
    refine ⟨?_, rfl⟩
    simp only [tick, tickCount]
    cases hp : child.ptr with
    | none => rfl
    | some a => simp only; rw [h.read (ℓ := .slot a i) (o := .relaxed) (by simp [PC.access, hp, Orders.code])]
  | prune parent child i acc k =>
    simp only [tick, tickPrune]
    cases hp : child.ptr with
    | none => exact ⟨rfl, rfl⟩
    | some a =>
      have hac : (PC.prune parent child i acc k : PC K P).access .code = some (.slot a i, .acquire) := by
        simp [PC.access, hp, Orders.code]
      simp only
      rw [h.read (ℓ := .slot a i) (o := .acquire) hac]
      split
      · exact ⟨rfl, rfl⟩
      · next gc hr =>
        have hpush : acc.push (m.write gc.condemn (.slot a i)) i gc = acc.push (m.thaw.write gc.condemn (.slot a i)) i gc := by
          have := thaw_loadData (m := m.write gc.condemn (.slot a i)) (w := gc.erase) (fun b hb => by
            rw [write_freed]; exact h.loaded gc b ⟨.slot a i, .acquire, hac, hr⟩ hb)
          simp only [PAcc.push]
          rw [this, thaw_write]
        rw [hpush]
        split
        · exact ⟨rfl, by simp⟩
        · split
          · exact ⟨rfl, by simp⟩
          · split <;> exact ⟨rfl, by simp⟩
  | pruneCas parent child acc k =>
    simp only [tick, tickPruneCas]
    cases hp : child.ptr with
    | none => exact ⟨rfl, rfl⟩
    | some a =>
      have hfa : m.freed a = false := h.held a (Or.inr (Or.inl (Or.inr hp)))
      simp only
      rw [h.read (ℓ := parent) rfl, thaw_deref hfa]
      split
      · split
        · refine ⟨rfl, ?_⟩
          generalize acc.decide = x
          obtain ⟨ins, res⟩ := x
          cases ins <;> simp
        · exact ⟨rfl, rfl⟩
      · exact ⟨rfl, rfl⟩

theorem writes_thaw {m : Mem P} {pc : PC K P} (h : Intact m pc) (weak : Bool) : pc.writes m weak = pc.writes m.thaw weak := by
  simp only [PC.writes]
  split
  · rfl
  · next ℓ o ha => rw [h.read ha]

theorem look_thaw {m : Mem P} {pc : PC K P} (h : Intact m pc) (weak : Bool) (τ now : Nat) (v : Loc → Nat) :
    pc.look m weak τ now v = pc.look m.thaw weak τ now v := by
  simp only [PC.look, writes_thaw h]

end Contrie
