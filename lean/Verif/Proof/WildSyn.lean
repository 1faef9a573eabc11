import Verif.Proof.WildSeen
import Verif.Proof.CohTick
import Verif.Model.Wild
/-
What one step of a call does, read off the code, with misbehaving user code; cf. `Verif/Proof/CohSyn.lean`.
-/
set_option linter.unusedSectionVars false
namespace Contrie
variable {K P : Type} [DecidableEq K]

/-- Where the locations accessed later come from. -/
theorem hTick_locs (o : Answers P) (m : Mem P) (weak : Bool) (pc : PC K P) {pc' : PC K P} {ran : Bool}
    (h : (hTick o m weak pc).2 = .goto pc' ran) {loc : Loc} (hl : pc'.HasLoc loc) :
    loc = .root ∨ pc.HasLoc loc ∨
    ∃ w a i, Loads m pc w ∧ w.ptr = some a ∧ w.data = false ∧ loc = .slot a i := by
  cases pc with
  | get key hash cur =>
    simp only [hTick, hTickGet] at h
    split at h
    · cases h
    · next node hr =>
      split at h
      · cases h
      · next a hp =>
        split at h
        · split at h
          · cases h
          · split at h <;> cases h
        · next hd => cases h; exact Or.inr (Or.inr ⟨node, a, _, ⟨cur, _, rfl, hr⟩, hp, by simpa using hd, hl⟩)
  | isEmpty => cases h
  | iterNew =>
    simp only [hTick, tickIterNew] at h
    cases h
    obtain ⟨x, hx, a, i, h1, h2, h3⟩ := hl
    simp only [List.mem_singleton] at hx; subst hx
    exact Or.inr (Or.inr ⟨m.root, a, i, ⟨.root, _, rfl, rfl⟩, h1, h2, h3⟩)
  | iterNext levels out =>
    have sub : ∀ {l : List (Word × Nat)} {out' : List P}, (∀ x ∈ l, ∃ y ∈ levels, x.1 = y.1) →
        (PC.iterNext l out' : PC K P).HasLoc loc → (PC.iterNext levels out : PC K P).HasLoc loc := by
      rintro l out' hs ⟨x, hx, a, i, h1, h2, h3⟩
      obtain ⟨y, hy, e⟩ := hs x hx
      exact ⟨y, hy, a, i, by rw [← e]; exact h1, by rw [← e]; exact h2, h3⟩
    simp only [hTick, tickIterNext] at h
    split at h
    · cases h
    · next w idx rest =>
      have tl : ∀ x ∈ rest, ∃ y ∈ (w, idx) :: rest, x.1 = y.1 := fun x hx => ⟨x, by simp [hx], rfl⟩
      split at h
      · cases h; exact Or.inr (Or.inl (sub tl hl))
      · next a hp =>
        split at h
        · split at h
          · cases h
          · split at h <;> cases h
            · refine Or.inr (Or.inl (sub ?_ hl))
              intro x hx
              simp only [List.mem_cons] at hx
              rcases hx with rfl | hx
              · exact ⟨(w, idx), by simp, rfl⟩
              · exact tl x hx
            · exact Or.inr (Or.inl (sub tl hl))
        · next hd =>
          split at h
          · next hi =>
            split at h
            · cases h
            · next w' hr =>
              split at h <;> cases h
              obtain ⟨x, hx, b, j, h1, h2, h3⟩ := hl
              simp only [List.mem_cons] at hx
              rcases hx with rfl | rfl | hx
              · refine Or.inr (Or.inr ⟨w', b, j, ⟨.slot a ⟨idx, hi⟩, .acquire, ?_, hr⟩, h1, h2, h3⟩)
                simp only [PC.access, hp, hd]
                rw [dif_pos hi]; rfl
              · exact Or.inr (Or.inl ⟨(w, idx), by simp, b, j, h1, h2, h3⟩)
              · exact Or.inr (Or.inl ⟨x, by simp [hx], b, j, h1, h2, h3⟩)
          · cases h; exact Or.inr (Or.inl (sub tl hl))
  | trav st hash mode shift cur parent =>
    simp only [hTick, hTickTrav] at h
    split at h
    · cases h
    · next node hr =>
      split at h
      · split at h
        · cases h
        · next p child =>
          rcases enterPrune_loc h hl with h1 | h1
          · exact Or.inr (Or.inl (Or.inr ⟨_, rfl, h1⟩))
          · exact h1.elim
      · split at h
        · cases h; exact Or.inr (Or.inl hl)
        · next a hp =>
          split at h
          · split at h
            · cases h
            · cases h
            · split at h
              · split at h
                · cases h
                · cases h; exact Or.inr (Or.inl hl)
              · split at h
                · cases h; exact Or.inr (Or.inl hl)
                · simp only [finishTrav] at h
                  split at h
                  · cases h
                  · split at h <;> cases h
          · next hd =>
            split at h
            · cases h
            · cases h
              rcases hl with hl | ⟨x, hx, hl⟩
              · exact Or.inr (Or.inr ⟨node, a, _, ⟨cur, _, rfl, hr⟩, hp, by simpa using hd, hl⟩)
              · cases hx
                rcases hl with hl | ⟨b, j, h1, h2⟩
                · exact Or.inr (Or.inl (Or.inl hl))
                · exact Or.inr (Or.inr ⟨node, b, j, ⟨cur, _, rfl, hr⟩, h1, by simpa using hd, h2⟩)
  | travCas st hash mode shift cur parent node new kind =>
    have fin : ∀ {m1 : Mem P} {r : Option (ExistingOrNew P)} {refs : List Nat},
        ((m1, finishTrav mode r refs) : Mem P × Next K P).2 = .goto pc' ran → False := by
      intro m1 r refs h
      simp only [finishTrav] at h
      split at h
      · cases h
      · split at h <;> cases h
    simp only [hTick, tickTravCas] at h
    split at h
    · cases h
    · split at h
      · split at h
        · cases h; exact Or.inr (Or.inl hl)
        · split at h <;> exact (fin h).elim
        · split at h
          · cases h
          · split at h
            · cases h
            · split at h <;> exact (fin h).elim
      · cases h; exact Or.inr (Or.inl hl)
  | rem key shift cur levels =>
    simp only [hTick, hTickRem] at h
    split at h
    · cases h
    · next node hr =>
      split at h
      · cases h
      · next a hp =>
        split at h
        · split at h
          · cases h
          · next p child rest =>
            rcases enterPrune_loc h hl with h1 | h1
            · exact Or.inr (Or.inl (Or.inr ⟨_, by simp, h1⟩))
            · exact h1.elim
        · split at h
          · split at h
            · cases h
            · split at h
              · cases h
              · cases h; exact Or.inr (Or.inl hl)
          · next hd =>
            split at h
            · cases h
            · split at h
              · cases h
              · cases h
                rcases hl with hl | ⟨x, hx, hl⟩
                · exact Or.inr (Or.inr ⟨node, a, _, ⟨cur, _, rfl, hr⟩, hp, by simpa using hd, hl⟩)
                · simp only [List.mem_cons] at hx
                  rcases hx with rfl | hx
                  · rcases hl with hl | ⟨b, j, h1, h2⟩
                    · exact Or.inr (Or.inl (Or.inl hl))
                    · exact Or.inr (Or.inr ⟨node, b, j, ⟨cur, _, rfl, hr⟩, h1, by simpa using hd, h2⟩)
                  · exact Or.inr (Or.inl (Or.inr ⟨x, hx, hl⟩))
  | remCas key shift cur levels node new deleted =>
    simp only [hTick, tickRemCas] at h
    split at h
    · cases h
    · split at h
      · split at h
        · cases h
        · split at h
          · cases h
          · exact Or.inr (Or.inl (Or.inr (enterClean_loc h hl)))
      · cases h; exact Or.inr (Or.inl hl)
  | count deleted ref parent child rest i cnt =>
    simp only [hTick, tickCount] at h
    split at h
    · cases h
    · split at h
      · cases h
      · next w hw =>
        generalize (if w.ptr.isSome then cnt + 1 else cnt) = cnt' at h
        split at h
        · cases h; exact Or.inr (Or.inl hl)
        · split at h
          · cases h
          · exact Or.inr (Or.inl (enterPrune_loc h hl))
  | prune parent child i acc k =>
    simp only [hTick, tickPrune] at h
    split at h
    · cases h
    · split at h
      · cases h
      · split at h
        · cases h
        · split at h
          · cases h; exact Or.inr (Or.inl hl)
          · split at h <;> cases h
            exact Or.inr (Or.inl hl)
  | pruneCas parent child acc k =>
    simp only [hTick, tickPruneCas] at h
    split at h
    · cases h
    · split at h
      · split at h
        · rcases afterPrune_loc h hl with h1 | h1
          · exact Or.inl h1
          · exact Or.inr (Or.inl (Or.inr h1))
        · rcases afterPrune_loc h hl with h1 | h1
          · exact Or.inl h1
          · exact Or.inr (Or.inl (Or.inr h1))
      · cases h

/-- Where the pointers held later come from. -/
theorem hTick_holds (o : Answers P) (m : Mem P) (weak : Bool) (pc : PC K P) {pc' : PC K P} {ran : Bool}
    (h : (hTick o m weak pc).2 = .goto pc' ran) {a : Nat} (hl : pc'.Holds a) :
    pc.Holds a ∨ ∃ w, Loads m pc w ∧ w.ptr = some a := by
  have nd : ∀ {b : Nat} {i : Fin 16}, (Loc.slot b i).node = some a → b = a := by intro b i h; cases h; rfl
  cases pc with
  | get key hash cur =>
    simp only [hTick, hTickGet] at h
    split at h
    · cases h
    · next node hr =>
      split at h
      · cases h
      · next b hp =>
        split at h
        · split at h
          · cases h
          · split at h <;> cases h
        · cases h; exact Or.inr ⟨node, ⟨cur, _, rfl, hr⟩, by rw [hp, nd hl]⟩
  | isEmpty => cases h
  | iterNew =>
    simp only [hTick, tickIterNew] at h
    cases h
    obtain ⟨x, hx, h1⟩ := hl
    simp only [List.mem_singleton] at hx; subst hx
    exact Or.inr ⟨m.root, ⟨.root, _, rfl, rfl⟩, h1⟩
  | iterNext levels out =>
    simp only [hTick, tickIterNext] at h
    split at h
    · cases h
    · next w idx rest =>
      have tl : (∃ x ∈ rest, x.1.ptr = some a) → (PC.iterNext ((w, idx) :: rest) out : PC K P).Holds a :=
        fun ⟨x, hx, h1⟩ => ⟨x, by simp [hx], h1⟩
      split at h
      · cases h; exact Or.inl (tl hl)
      · next b hp =>
        split at h
        · split at h
          · cases h
          · split at h <;> cases h
            · obtain ⟨x, hx, h1⟩ := hl
              simp only [List.mem_cons] at hx
              rcases hx with rfl | hx
              · exact Or.inl ⟨(w, idx), by simp, h1⟩
              · exact Or.inl (tl ⟨x, hx, h1⟩)
            · exact Or.inl (tl hl)
        · next hd =>
          split at h
          · next hi =>
            split at h
            · cases h
            · next w' hr =>
              split at h <;> cases h
              obtain ⟨x, hx, h1⟩ := hl
              simp only [List.mem_cons] at hx
              rcases hx with rfl | rfl | hx
              · refine Or.inr ⟨w', ⟨.slot b ⟨idx, hi⟩, .acquire, ?_, hr⟩, h1⟩
                simp only [PC.access, hp, hd]
                rw [dif_pos hi]; rfl
              · exact Or.inl ⟨(w, idx), by simp, h1⟩
              · exact Or.inl (tl ⟨x, hx, h1⟩)
          · cases h; exact Or.inl (tl hl)
  | trav st hash mode shift cur parent =>
    simp only [hTick, hTickTrav] at h
    split at h
    · cases h
    · next node hr =>
      have ld : Loads m (PC.trav st hash mode shift cur parent : PC K P) node := ⟨cur, _, rfl, hr⟩
      split at h
      · split at h
        · cases h
        · next p child =>
          rcases enterPrune_holds h hl with h1 | h1
          · exact h1.elim
          · exact Or.inl (Or.inr ⟨_, rfl, h1⟩)
      · split at h
        · cases h
          rcases hl with hl | hl | ⟨c, p, i, hl, -⟩
          · exact Or.inl hl
          · exact Or.inr ⟨node, ld, hl⟩
          · cases hl
        · next b hp =>
          split at h
          · split at h
            · cases h
            · cases h
            · split at h
              · split at h
                · cases h
                · cases h
                  rcases hl with hl | hl | ⟨c, p, i, hl, hc⟩
                  · exact Or.inl hl
                  · exact Or.inr ⟨node, ld, hl⟩
                  · cases hl
                    refine Or.inr ⟨node, ld, ?_⟩
                    simp only [upd] at hc
                    split at hc
                    · exact hc
                    · cases hc
              · split at h
                · cases h
                  rcases hl with hl | hl | ⟨c, p, i, hl, -⟩
                  · exact Or.inl hl
                  · exact Or.inr ⟨node, ld, hl⟩
                  · cases hl
                · simp only [finishTrav] at h
                  split at h
                  · cases h
                  · split at h <;> cases h
          · split at h
            · cases h
            · cases h
              rcases hl with hl | ⟨x, hx, hl⟩
              · exact Or.inr ⟨node, ld, by rw [hp, nd hl]⟩
              · cases hx
                rcases hl with hl | hl
                · exact Or.inl (Or.inl hl)
                · exact Or.inr ⟨node, ld, hl⟩
  | travCas st hash mode shift cur parent node new kind =>
    have fin : ∀ {m1 : Mem P} {r : Option (ExistingOrNew P)} {refs : List Nat},
        ((m1, finishTrav mode r refs) : Mem P × Next K P).2 = .goto pc' ran → False := by
      intro m1 r refs h
      simp only [finishTrav] at h
      split at h
      · cases h
      · split at h <;> cases h
    simp only [hTick, tickTravCas] at h
    split at h
    · cases h
    · split at h
      · split at h
        · cases h; exact Or.inl (Or.inl hl)
        · split at h <;> exact (fin h).elim
        · split at h
          · cases h
          · split at h
            · cases h
            · split at h <;> exact (fin h).elim
      · cases h; exact Or.inl (Or.inl hl)
  | rem key shift cur levels =>
    simp only [hTick, hTickRem] at h
    split at h
    · cases h
    · next node hr =>
      have ld : Loads m (PC.rem key shift cur levels : PC K P) node := ⟨cur, _, rfl, hr⟩
      split at h
      · cases h
      · next b hp =>
        split at h
        · split at h
          · cases h
          · next p child rest =>
            rcases enterPrune_holds h hl with h1 | h1
            · exact h1.elim
            · exact Or.inl (Or.inr ⟨(p, child), List.mem_cons_self, h1⟩)
        · split at h
          · split at h
            · cases h
            · split at h
              · cases h
              · cases h
                rcases hl with hl | hl
                · exact Or.inl hl
                · exact Or.inr ⟨node, ld, hl⟩
          · split at h
            · cases h
            · split at h
              · cases h
              · cases h
                rcases hl with hl | ⟨x, hx, hl⟩
                · exact Or.inr ⟨node, ld, by rw [hp, nd hl]⟩
                · simp only [List.mem_cons] at hx
                  rcases hx with rfl | hx
                  · rcases hl with hl | hl
                    · exact Or.inl (Or.inl hl)
                    · exact Or.inr ⟨node, ld, hl⟩
                  · exact Or.inl (Or.inr ⟨x, hx, hl⟩)
  | remCas key shift cur levels node new deleted =>
    simp only [hTick, tickRemCas] at h
    split at h
    · cases h
    · split at h
      · split at h
        · cases h
        · next old ho =>
          split at h
          · cases h
          · rcases enterClean_holds h hl with h1 | h1
            · exact Or.inl (Or.inr (by rw [ho, h1]))
            · exact Or.inl (Or.inl (Or.inr h1))
      · cases h; exact Or.inl (Or.inl hl)
  | count deleted ref parent child rest i cnt =>
    simp only [hTick, tickCount] at h
    split at h
    · cases h
    · split at h
      · cases h
      · next w hw =>
        generalize (if w.ptr.isSome then cnt + 1 else cnt) = cnt' at h
        split at h
        · cases h; exact Or.inl hl
        · split at h
          · cases h
          · exact Or.inl (enterPrune_holds h hl)
  | prune parent child i acc k =>
    simp only [hTick, tickPrune] at h
    split at h
    · cases h
    · next b hp =>
      split at h
      · cases h
      · next gc hr =>
        have ld : Loads m (PC.prune parent child i acc k : PC K P) gc :=
          ⟨.slot b i, .acquire, by simp [PC.access, hp, Orders.code], hr⟩
        split at h
        · cases h
        · next acc' hpush =>
          have key : Cont.Holds a k ∨ (parent.node = some a ∨ child.ptr = some a) ∨
              (∃ i, (acc'.newChild i).ptr = some a) ∨ (∃ w, acc'.lastLeaf = some w ∧ w.ptr = some a) →
              (PC.prune parent child i acc k : PC K P).Holds a ∨
              ∃ w, Loads m (PC.prune parent child i acc k : PC K P) w ∧ w.ptr = some a := by
            rintro (h1 | h1 | h1)
            · exact Or.inl (Or.inl h1)
            · exact Or.inl (Or.inr (Or.inl h1))
            · rcases push_holds hpush h1 with h2 | h2
              · exact Or.inl (Or.inr (Or.inr h2))
              · exact Or.inr ⟨gc, ld, h2⟩
          split at h
          · cases h; exact key hl
          · split at h <;> cases h
            exact key hl
  | pruneCas parent child acc k =>
    simp only [hTick, tickPruneCas] at h
    split at h
    · cases h
    · split at h
      · split at h
        · exact Or.inl (Or.inl (afterPrune_holds h hl))
        · exact Or.inl (Or.inl (afterPrune_holds h hl))
      · cases h

/-- What a returned reference points into: something the call had, or the node it has just created. -/
theorem hTick_refs (o : Answers P) (m : Mem P) (weak : Bool) (pc : PC K P) {r : Res P} {refs : List Nat}
    (h : (hTick o m weak pc).2 = .ret r refs) {a : Nat} (hl : a ∈ refs) :
    pc.Holds a ∨ (∃ w, Loads m pc w ∧ w.ptr = some a) ∨ (a = m.next ∧ pc.writes m weak = true) := by
  cases pc with
  | get key hash cur =>
    simp only [hTick, hTickGet] at h
    split at h
    · cases h
    · next node hr =>
      split at h
      · cases h; cases hl
      · next b hp =>
        split at h
        · split at h
          · cases h
          · split at h <;> cases h
            · cases hl
            · simp only [List.mem_singleton] at hl; subst hl
              exact Or.inr (Or.inl ⟨node, ⟨cur, _, rfl, hr⟩, hp⟩)
        · cases h
  | isEmpty => simp only [hTick] at h; cases h; cases hl
  | iterNew => simp only [hTick, tickIterNew] at h; cases h
  | iterNext levels out =>
    simp only [hTick, tickIterNext] at h
    split at h
    · cases h; cases hl
    · split at h
      · cases h
      · split at h
        · split at h
          · cases h
          · split at h <;> cases h
        · split at h
          · split at h
            · cases h
            · split at h <;> cases h
          · cases h
  | trav st hash mode shift cur parent =>
    simp only [hTick, hTickTrav] at h
    split at h
    · cases h
    · next node hr =>
      have ld : Loads m (PC.trav st hash mode shift cur parent : PC K P) node := ⟨cur, _, rfl, hr⟩
      split at h
      · split at h
        · cases h
        · exact (enterPrune_ret h).elim
      · split at h
        · cases h
        · next b hp =>
          split at h
          · split at h
            · cases h
            · cases h
            · split at h
              · split at h <;> cases h
              · split at h
                · cases h
                · have : refs = [b] := by
                    simp only [finishTrav] at h
                    split at h
                    · cases h; rfl
                    · split at h <;> cases h
                      rfl
                  subst this
                  simp only [List.mem_singleton] at hl; subst hl
                  exact Or.inr (Or.inl ⟨node, ld, hp⟩)
          · split at h <;> cases h
  | travCas st hash mode shift cur parent node new kind =>
    have fin : ∀ {m1 : Mem P} {x : Option (ExistingOrNew P)} {refs' : List Nat},
        ((m1, finishTrav mode x refs') : Mem P × Next K P).2 = .ret r refs → refs = refs' := by
      intro m1 x refs' h
      simp only [finishTrav] at h
      split at h
      · cases h; rfl
      · split at h <;> cases h
        rfl
    simp only [hTick, tickTravCas] at h
    split at h
    · cases h
    · next w hr =>
      split at h
      · next hw =>
        have wr : (PC.travCas st hash mode shift cur parent node new kind : PC K P).writes m weak = true := by
          simp [PC.writes, PC.access, PC.stores, hr, hw]
        split at h
        · cases h
        · split at h
          · have := fin h; subst this; cases hl
          · have := fin h; subst this
            simp only [List.mem_singleton] at hl
            exact Or.inr (Or.inr ⟨hl, wr⟩)
        · split at h
          · cases h
          · next old ho =>
            split at h
            · cases h
            · split at h
              · have := fin h; subst this
                simp only [List.mem_singleton] at hl
                exact Or.inr (Or.inr ⟨hl, wr⟩)
              · have := fin h; subst this
                simp only [List.mem_singleton] at hl
                exact Or.inl (Or.inr (Or.inl (by rw [ho, hl])))
              · have := fin h; subst this; cases hl
      · cases h
  | rem key shift cur levels =>
    simp only [hTick, hTickRem] at h
    split at h
    · cases h
    · split at h
      · cases h; cases hl
      · split at h
        · split at h
          · cases h
          · exact (enterPrune_ret h).elim
        · split at h
          · split at h
            · cases h
            · split at h <;> cases h
              cases hl
          · split at h
            · cases h
            · split at h <;> cases h
  | remCas key shift cur levels node new deleted =>
    simp only [hTick, tickRemCas] at h
    split at h
    · cases h
    · split at h
      · split at h
        · cases h
        · next old ho =>
          split at h
          · cases h
          · obtain ⟨-, e⟩ := enterClean_ret h
            subst e
            simp only [List.mem_singleton] at hl
            exact Or.inl (Or.inr (by rw [ho, hl]))
      · cases h
  | count deleted ref parent child rest i cnt =>
    simp only [hTick, tickCount] at h
    split at h
    · cases h
    · split at h
      · cases h
      · next w hw =>
        generalize (if w.ptr.isSome then cnt + 1 else cnt) = cnt' at h
        split at h
        · cases h
        · split at h
          · cases h
            simp only [List.mem_singleton] at hl
            exact Or.inl (Or.inl (Or.inl hl.symm))
          · exact (enterPrune_ret h).elim
  | prune parent child i acc k =>
    simp only [hTick, tickPrune] at h
    split at h
    · cases h
    · split at h
      · cases h
      · split at h
        · cases h
        · split at h
          · cases h
          · split at h <;> cases h
  | pruneCas parent child acc k =>
    have key : ∀ {pr : PruneResult}, afterPrune pr k = .ret r refs → (PC.pruneCas parent child acc k : PC K P).Holds a := by
      intro pr h
      obtain ⟨d, ref, rest, e1, -, e3⟩ := afterPrune_ret h
      subst e1 e3
      simp only [List.mem_singleton] at hl
      exact Or.inl (Or.inl hl.symm)
    simp only [hTick, tickPruneCas] at h
    split at h
    · cases h
    · split at h
      · split at h
        · exact Or.inl (key h)
        · exact Or.inl (key h)
      · cases h

/-- A step that stores nothing leaves the memory alone. -/
theorem hTick_quiet (o : Answers P) (m : Mem P) (weak : Bool) {pc : PC K P} (hw : pc.writes m weak = false) :
    (hTick o m weak pc).1 = m := by
  cases pc with
  | travCas st hash mode shift cur parent node new kind =>
    simp only [hTick, tickTravCas]
    cases hr : m.read cur with
    | none => rfl
    | some w =>
      have : ¬ (w = node ∧ weak = false) := by
        intro e
        simp [PC.writes, PC.access, PC.stores, hr, e] at hw
      simp only [if_neg this]
  | remCas key shift cur levels node new deleted =>
    simp only [hTick, tickRemCas]
    cases hr : m.read cur with
    | none => rfl
    | some w =>
      have : ¬ (w = node ∧ weak = false) := by
        intro e
        simp [PC.writes, PC.access, PC.stores, hr, e] at hw
      simp only [if_neg this]
  | prune parent child i acc k =>
    simp only [hTick, tickPrune]
    cases hp : child.ptr with
    | none => rfl
    | some a =>
      cases hr : m.read (.slot a i) with
      | none => simp only [hr]
      | some w => simp [PC.writes, PC.access, PC.stores, hp, hr] at hw
  | pruneCas parent child acc k =>
    simp only [hTick, tickPruneCas]
    cases hp : child.ptr with
    | none => rfl
    | some a =>
      simp only
      split
      · next w _ _ hr _ =>
        have : ¬ w = child := by
          intro e
          simp [PC.writes, PC.access, PC.stores, hr, e] at hw
        simp only [if_neg this]
      · rfl
  | _ => rfl

/-- A step which dereferences nothing destroyed is not affected by what is destroyed. -/
theorem hTick_thaw (o : Answers P) {m : Mem P} (weak : Bool) {pc : PC K P} (h : Intact m pc) :
    (hTick o m weak pc).2 = (hTick o m.thaw weak pc).2 ∧
    (hTick o m weak pc).1.thaw = (hTick o m.thaw weak pc).1 := by
  have ldd : ∀ w, Loads m.thaw pc w → m.loadData w = m.thaw.loadData w := fun w hw =>
    thaw_loadData (fun a ha => h.loaded w a hw ha)
  cases pc with
  | get key hash cur =>
    have h1 := h.read (ℓ := cur) rfl
    refine ⟨?_, rfl⟩
    simp only [hTick, hTickGet]
    cases hr : m.thaw.read cur with
    | none => rw [h1, hr]
    | some node =>
      rw [h1, hr]
      simp only
      rw [ldd node ⟨cur, _, rfl, hr⟩]
  | isEmpty => exact ⟨rfl, rfl⟩
  | iterNew => exact ⟨rfl, rfl⟩
  | iterNext levels out =>
    refine ⟨?_, rfl⟩
    cases levels with
    | nil => rfl
    | cons x rest =>
      obtain ⟨w, idx⟩ := x
      simp only [hTick, tickIterNext]
      cases hp : w.ptr with
      | none => rfl
      | some a =>
        have hfa : m.freed a = false := h.held a ⟨(w, idx), by simp, hp⟩
        simp only
        rw [thaw_loadData (m := m) (w := w) (fun b hb => by rw [hp] at hb; cases hb; exact hfa)]
        split
        · rfl
        · split
          · next hi => rw [thaw_read (m := m) (ℓ := .slot a ⟨idx, hi⟩) (fun b hb => by cases hb; exact hfa)]
          · rfl
  | trav st hash mode shift cur parent =>
    have h1 := h.read (ℓ := cur) rfl
    refine ⟨?_, rfl⟩
    simp only [hTick, hTickTrav]
    cases hr : m.thaw.read cur with
    | none => rw [h1, hr]
    | some node =>
      rw [h1, hr]
      simp only
      rw [ldd node ⟨cur, _, rfl, hr⟩]
  | travCas st hash mode shift cur parent node new kind =>
    have h1 := h.read (ℓ := cur) rfl
    simp only [hTick, tickTravCas]
    rw [h1]
    split
    · exact ⟨rfl, rfl⟩
    · split
      · cases kind with
        | fresh => cases mode <;> exact ⟨rfl, by simp⟩
        | split => exact ⟨rfl, by simp⟩
        | replace found =>
          simp only
          split
          · exact ⟨rfl, by simp⟩
          · split
            · exact ⟨rfl, by simp⟩
            · cases found <;> cases mode <;> exact ⟨rfl, by simp⟩
      · exact ⟨rfl, rfl⟩
  | rem key shift cur levels =>
    have h1 := h.read (ℓ := cur) rfl
    refine ⟨?_, rfl⟩
    simp only [hTick, hTickRem]
    cases hr : m.thaw.read cur with
    | none => rw [h1, hr]
    | some node =>
      rw [h1, hr]
      simp only
      rw [ldd node ⟨cur, _, rfl, hr⟩]
  | remCas key shift cur levels node new deleted =>
    have h1 := h.read (ℓ := cur) rfl
    simp only [hTick, tickRemCas]
    rw [h1]
    split
    · exact ⟨rfl, rfl⟩
    · split
      · split
        · cases new <;> exact ⟨rfl, by simp⟩
        · split
          · cases new <;> exact ⟨rfl, by simp⟩
          · cases new <;> exact ⟨rfl, by simp⟩
      · exact ⟨rfl, rfl⟩
  | count deleted ref parent child rest i cnt =>
    refine ⟨?_, rfl⟩
    simp only [hTick, tickCount]
    cases hp : child.ptr with
    | none => rfl
    | some a => simp only; rw [h.read (ℓ := .slot a i) (o := .relaxed) (by simp [PC.access, hp, Orders.code])]
  | prune parent child i acc k =>
    simp only [hTick, tickPrune]
    cases hp : child.ptr with
    | none => exact ⟨rfl, rfl⟩
    | some a =>
      have hac : (PC.prune parent child i acc k : PC K P).access .code = some (.slot a i, .acquire) := by
        simp [PC.access, hp, Orders.code]
      simp only
      rw [h.read (ℓ := .slot a i) (o := .acquire) hac]
      split
      · exact ⟨rfl, rfl⟩
      · next gc hr =>
        have hpush : acc.push (m.write gc.condemn (.slot a i)) i gc = acc.push (m.thaw.write gc.condemn (.slot a i)) i gc := by
          have := thaw_loadData (m := m.write gc.condemn (.slot a i)) (w := gc.erase) (fun b hb => by
            rw [write_freed]; exact h.loaded gc b ⟨.slot a i, .acquire, hac, hr⟩ hb)
          simp only [PAcc.push]
          rw [this, thaw_write]
        rw [hpush]
        split
        · exact ⟨rfl, by simp⟩
        · split
          · exact ⟨rfl, by simp⟩
          · split <;> exact ⟨rfl, by simp⟩
  | pruneCas parent child acc k =>
    simp only [hTick, tickPruneCas]
    cases hp : child.ptr with
    | none => exact ⟨rfl, rfl⟩
    | some a =>
      have hfa : m.freed a = false := h.held a (Or.inr (Or.inl (Or.inr hp)))
      simp only
      rw [h.read (ℓ := parent) rfl, thaw_deref hfa]
      split
      · split
        · refine ⟨rfl, ?_⟩
          generalize acc.decide = x
          obtain ⟨ins, res⟩ := x
          cases ins <;> simp
        · exact ⟨rfl, rfl⟩
      · exact ⟨rfl, rfl⟩

end Contrie
