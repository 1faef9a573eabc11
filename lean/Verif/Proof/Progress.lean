import Verif.Proof.Measure
/-
Every step of a call makes progress.
-/
set_option linter.unusedSectionVars false
namespace Contrie
variable {K P : Type} [DecidableEq K]
variable {cfg : Config K P} {A : Nat → AMap K P} {m m' : Mem P}

theorem bump_measures (m : Mem P) : m.bump.dmg = m.dmg ∧ m.bump.room = m.room ∧ m.bump.clean = m.clean :=
  mem_measures rfl rfl rfl rfl

/-- The step keeps `Helps` and makes progress. -/
def Good (m m' : Mem P) (tk : Nat) (pc pc' : PC K P) : Prop := Helps m' pc' ∧ TDec m m' tk pc pc'

theorem TDec.local1 {tk : Nat} {pc pc' : PC K P} (h0 : pc'.rank = pc.rank) (h : pc'.loc1 (tk + 1) < pc.loc1 tk) :
    TDec m m' tk pc pc' := Or.inr ⟨h0, Or.inl h⟩

theorem TDec.global {tk : Nat} {pc pc' : PC K P} (h0 : pc'.rank = pc.rank) (h1 : pc'.loc1 (tk + 1) = pc.loc1 tk)
    (h2 : pc'.loc2 m' = pc.loc2 m) (h : GDec m m' pc pc') : TDec m m' tk pc pc' :=
  Or.inr ⟨h0, Or.inr ⟨h1, Or.inr ⟨h2, h⟩⟩⟩

theorem TDec.retry {tk : Nat} {pc pc' : PC K P} (h0 : pc'.rank = pc.rank) (h1 : pc'.loc1 (tk + 1) = pc.loc1 tk)
    (h2 : pc'.loc2 m = pc.loc2 m) (h : pc'.ell m < pc.ell m) : TDec m m tk pc pc' :=
  .global h0 h1 h2 (.quiet rfl rfl rfl rfl h)

theorem good_get {tk : Nat} {key : K} {hash : BitVec 64} {cur : Loc} {pc' : PC K P} {ran : Bool} (htk : tk ≤ 16)
    (h : tick cfg m false (.get key hash cur) = (m', .goto pc' ran)) : Good m m' tk (.get key hash cur) pc' := by
  simp only [tick, Prod.mk.injEq] at h
  obtain ⟨rfl, h⟩ := h
  simp only [tickGet] at h
  split at h
  · cases h
  split at h
  · cases h
  split at h
  · split at h
    · cases h
    · split at h <;> cases h
  · cases h
    exact ⟨trivial, .local1 rfl (by simp only [PC.loc1]; omega)⟩

theorem good_isEmpty {tk : Nat} {pc' : PC K P} {ran : Bool}
    (h : tick cfg m false .isEmpty = (m', .goto pc' ran)) : Good m m' tk .isEmpty pc' := by
  simp [tick] at h

theorem good_iterNew {tk : Nat} {pc' : PC K P} {ran : Bool}
    (h : (m, tickIterNew m) = (m', .goto pc' ran)) : Good m m' tk .iterNew pc' := by
  simp only [tickIterNew, Prod.mk.injEq, Next.goto.injEq] at h
  obtain ⟨rfl, rfl, -⟩ := h
  refine ⟨trivial, .local1 rfl ?_⟩
  simp only [PC.loc1, phi]
  have : 17 ^ 18 = 17 * 17 ^ 17 := by rw [show (18 : Nat) = 17 + 1 from rfl, Nat.pow_succ]; omega
  have h0 : 0 < 17 ^ 17 := Nat.pow_pos (by omega)
  rw [this]
  generalize 17 ^ 17 = x at *
  split <;> simp <;> omega

theorem good_iterNext {tk : Nat} {lv : List (Word × Nat)} {out : List P} {pc' : PC K P} {ran : Bool}
    (h : (m, tickIterNext m lv out) = (m', .goto pc' ran)) : Good m m' tk (.iterNext lv out) pc' := by
  simp only [Prod.mk.injEq] at h
  obtain ⟨rfl, h⟩ := h
  have pop : ∀ {w : Word} {idx : Nat} {rest : List (Word × Nat)},
      ((if w.ptr.isSome ∧ w.data = false then (16 - idx) * 17 ^ (17 - rest.length) else 0) = 0) →
      Good m m tk (.iterNext ((w, idx) :: rest) out : PC K P) (.iterNext rest out) := by
    intro w idx rest h0
    refine ⟨trivial, Or.inr ⟨rfl, Or.inr ⟨?_, Or.inl ?_⟩⟩⟩
    · simp only [PC.loc1, phi, h0]; omega
    · simp only [PC.loc2, rho]; omega
  unfold tickIterNext at h
  split at h
  · cases h
  · next w idx rest =>
    split at h
    · next hp => cases h; exact pop (by simp [hp])
    · next a hp =>
      split at h
      · next hd =>
        simp only [Mem.loadData, hd, hp] at h
        split at h
        · cases h
        · next items hl =>
          split at h
          · next p hg =>
            cases h
            refine ⟨trivial, Or.inr ⟨rfl, Or.inr ⟨?_, Or.inl ?_⟩⟩⟩
            · simp [PC.loc1, phi, hd]
            · have hm : m.mem a = some (.data items) := by
                simp only [Bool.true_eq_false, if_false] at hl
                split at hl
                · next e =>
                  cases hl
                  simp only [Mem.deref] at e
                  split at e
                  · cases e
                  · exact e
                · cases hl
              have hlt : idx < items.length := by
                by_contra hx
                rw [List.getElem?_eq_none (by omega)] at hg; cases hg
              simp only [PC.loc2, rho, Mem.left, hp, hm]; omega
          · cases h; exact pop (by simp [hd])
      · next hd =>
        have hd' : w.data = false := by simpa using hd
        split at h
        · next hi =>
          split at h
          · cases h
          · next w' hr =>
            split at h
            · cases h
            · next hlen =>
              cases h
              refine ⟨trivial, .local1 rfl ?_⟩
              simp only [MAX_LEVELS, LEVEL_BITS, List.length_cons] at hlen
              simp only [PC.loc1, phi, hp, hd', Option.isSome_some, and_self, if_true, List.length_cons]
              have e : 17 ^ (17 - rest.length) = 17 * 17 ^ (17 - (rest.length + 1)) := by
                rw [show 17 - rest.length = (17 - (rest.length + 1)) + 1 by omega, Nat.pow_succ]; omega
              have h0 : 0 < 17 ^ (17 - (rest.length + 1)) := Nat.pow_pos (by omega)
              rw [e]
              generalize 17 ^ (17 - (rest.length + 1)) = x at *
              obtain ⟨j, hj⟩ : ∃ j, 16 - idx = j + 1 := ⟨15 - idx, by omega⟩
              have hj' : 16 - (idx + 1) = j := by omega
              rw [hj, hj', Nat.add_mul]
              split <;> omega
        · next hi => cases h; exact pop (by rw [if_pos (by simp [hp, hd'])]; simp [show 16 - idx = 0 by omega])

theorem head_help {cur : Loc} {x : Loc × Word} {w : Word}
    (hh : ∀ p ch, some x = some (p, ch) → ∃ a i, cur = .slot a i ∧ ch.ptr = some a)
    (hr : m.read cur = some w) (hc : w.cond = true) :
    ∃ a c q i, x.2.ptr = some a ∧ m.mem a = some (.inner c q) ∧ (c i).cond = true := by
  obtain ⟨a, i, rfl, h2⟩ := hh x.1 x.2 rfl
  have := raw_of_read hr
  simp only [Mem.raw] at this
  split at this
  · next c q e => cases this; exact ⟨a, c, q, i, h2, e, hc⟩
  · cases this

theorem good_trav {tk : Nat} {st : TState K P} {hash : BitVec 64} {mode : Mode} {shift : Nat} {cur : Loc}
    {parent : Option (Loc × Word)} {pc' : PC K P} {ran : Bool}
    (hh : Helps m (.trav st hash mode shift cur parent : PC K P))
    (h : tick cfg m false (.trav st hash mode shift cur parent) = (m', .goto pc' ran)) :
    Good m m' tk (.trav st hash mode shift cur parent) pc' := by
  simp only [tick, Prod.mk.injEq] at h
  obtain ⟨rfl, h⟩ := h
  simp only [Helps] at hh
  unfold tickTrav at h
  split at h
  · cases h
  · next node hr =>
    have hraw := raw_of_read hr
    split at h
    · next hcond =>
      split at h
      · cases h
      · next p child =>
        simp only [enterPrune] at h
        split at h
        · cases h
        split at h
        · cases h
        cases h
        refine ⟨head_help hh hr hcond, .retry rfl rfl rfl ?_⟩
        simp only [PC.ell, staleOpt]; simp; omega
    · have cas : ∀ st' new kind, Good m m tk (.trav st hash mode shift cur parent)
          (.travCas st' hash mode shift cur parent node new kind) := by
        intro st' new kind
        refine ⟨hh, .retry rfl rfl rfl ?_⟩
        simp only [PC.ell, hraw, if_true]; omega
      split at h
      · cases h; exact cas _ _ _
      · next a hp =>
        split at h
        · split at h
          · cases h
          · cases h
          · split at h
            · split at h <;> cases h
              exact cas _ _ _
            · simp only at h
              split at h
              · cases h; exact cas _ _ _
              · simp only [finishTrav] at h
                split at h
                · cases h
                · split at h <;> cases h
        · split at h
          · cases h
          · next hsh =>
            cases h
            refine ⟨?_, .retry rfl rfl rfl ?_⟩
            · rintro p ch e; cases e; exact ⟨a, _, rfl, hp⟩
            · simp only [PC.ell, staleOpt, stale, hraw, if_true, HASH_BITS, LEVEL_BITS] at hsh ⊢; omega

theorem good_rem {tk : Nat} {key : K} {shift : Nat} {cur : Loc}
    {levels : List (Loc × Word)} {pc' : PC K P} {ran : Bool}
    (hh : Helps m (.rem key shift cur levels : PC K P))
    (h : tick cfg m false (.rem key shift cur levels) = (m', .goto pc' ran)) :
    Good m m' tk (.rem key shift cur levels) pc' := by
  simp only [tick, Prod.mk.injEq] at h
  obtain ⟨rfl, h⟩ := h
  simp only [Helps] at hh
  unfold tickRem at h
  split at h
  · cases h
  · next node hr =>
    have hraw := raw_of_read hr
    split at h
    · cases h
    · next a hp =>
      split at h
      · next hcond =>
        split at h
        · cases h
        · next p child rest =>
          simp only [enterPrune] at h
          split at h
          · cases h
          split at h
          · cases h
          cases h
          refine ⟨head_help hh hr hcond, .retry rfl rfl rfl ?_⟩
          simp only [PC.ell, staleOpt, List.head?_cons]; simp; omega
      · split at h
        · split at h
          · cases h
          · split at h
            · cases h
            · cases h
              refine ⟨hh, .retry rfl rfl rfl ?_⟩
              simp only [PC.ell, hraw, if_true]; omega
        · split at h
          · cases h
          split at h
          · cases h
          · next hsh =>
            cases h
            refine ⟨?_, .retry rfl rfl rfl ?_⟩
            · rintro p ch e; cases e; exact ⟨a, _, rfl, hp⟩
            · simp only [PC.ell, staleOpt, List.head?_cons, stale, hraw, if_true, HASH_BITS, LEVEL_BITS] at hsh ⊢; omega

theorem good_remCas {tk : Nat} {key : K} {shift : Nat} {cur : Loc}
    {levels : List (Loc × Word)} {node : Word} {new : List P} {deleted : P} {pc' : PC K P} {ran : Bool}
    (hh : Helps m (.remCas key shift cur levels node new deleted : PC K P))
    (h : tickRemCas m false key shift cur levels node new deleted = (m', .goto pc' ran)) :
    Good m m' tk (.remCas key shift cur levels node new deleted) pc' := by
  unfold tickRemCas at h
  split at h
  · simp at h
  · next w hr =>
    have hraw := raw_of_read hr
    split at h
    · simp only at h
      split at h
      · simp at h
      · split at h
        · simp at h
        · simp only [Prod.mk.injEq] at h
          obtain ⟨-, h⟩ := h
          cases levels with
          | nil => simp [enterClean] at h
          | cons y rest =>
            simp only [enterClean] at h
            split at h
            · cases h
            · cases h
              exact ⟨trivial, Or.inl (by simp [PC.rank, PC.taken])⟩
    · next hne =>
      simp only [Prod.mk.injEq, Next.goto.injEq] at h
      obtain ⟨rfl, rfl, -⟩ := h
      refine ⟨hh, .retry rfl rfl rfl ?_⟩
      have : w ≠ node := by intro e; exact hne ⟨e, rfl⟩
      simp only [PC.ell, hraw, Option.some.injEq, this, if_false]; omega

theorem good_count {tk : Nat} {deleted : P} {ref : Nat} {parent : Loc} {child : Word} {rest : List (Loc × Word)}
    {i : Fin 16} {cn : Nat} {pc' : PC K P} {ran : Bool}
    (h : (m, tickCount m deleted ref parent child rest i cn) = (m', .goto pc' ran)) :
    Good m m' tk (.count deleted ref parent child rest i cn) pc' := by
  simp only [Prod.mk.injEq] at h
  obtain ⟨rfl, h⟩ := h
  unfold tickCount at h
  split at h
  · cases h
  split at h
  · cases h
  next w _ =>
  simp only at h
  generalize (if w.ptr.isSome = true then cn + 1 else cn) = cn' at h
  split at h
  · cases h
    exact ⟨trivial, .local1 rfl (by simp only [PC.loc1]; omega)⟩
  · split at h
    · cases h
    · simp only [enterPrune] at h
      split at h
      · cases h
      split at h
      · cases h
      cases h
      exact ⟨trivial, .local1 rfl (by simp only [PC.loc1]; simp; omega)⟩

theorem good_travCas {tk : Nat} {c : Call K P} (x : Ctx cfg A m c.inv) (hi : PCInv cfg A m c) {st : TState K P} {hash : BitVec 64} {mode : Mode} {shift : Nat} {cur : Loc}
    {parent : Option (Loc × Word)} {node : Word} {new : Node P} {kind : TKind P} {pc' : PC K P} {ran : Bool}
    (hpc : c.pc = .travCas st hash mode shift cur parent node new kind)
    (hh : Helps m (.travCas st hash mode shift cur parent node new kind : PC K P))
    (h : tick cfg m false (.travCas st hash mode shift cur parent node new kind) = (m', .goto pc' ran)) :
    Good m m' tk (.travCas st hash mode shift cur parent node new kind) pc' := by
  simp only [PCInv, hpc] at hi
  obtain ⟨d, rfl, ht, hcas⟩ := hi
  obtain ⟨w, hr, hat, hheld, hok⟩ := x.read ht.loc
  have hraw := raw_of_read hr
  simp only [tick] at h
  unfold tickTravCas at h
  rw [hr] at h
  simp only at h
  split at h
  · next hsucc =>
    have fin : ∀ {m1 : Mem P} {r refs}, (m1, finishTrav mode r refs) = (m', .goto pc' ran) → False := by
      intro m1 r refs h
      simp only [finishTrav] at h
      split at h
      · cases h
      · split at h <;> cases h
    cases hcas with
    | fresh p hst =>
      simp only at h
      split at h <;> exact (fin h).elim
    | replace a p items hst hh hm hok hdeep hmode =>
      simp only [Bool.true_eq_false, if_false] at h
      split at h <;> exact (fin h).elim
    | split a d0 hh' hm hd hne =>
      obtain ⟨rfl, -⟩ := hsucc
      simp only [Prod.mk.injEq, Next.goto.injEq] at h
      obtain ⟨h1, rfl, -⟩ := h
      refine ⟨hh, .global rfl rfl rfl ?_⟩
      have hnn := x.h.fresh _ (Nat.le_refl _)
      have hlen : (pre hash d).length = d := pre_length _ ht.len
      have hsw := swing_swung hat hnn ⟨some m.next, false, false⟩ (some (Node.inner (upd (fun _ => Word.null)
        (bitsAt (cfg.hash (cfg.key d0)) (LEVEL_BITS * d)) ⟨some a, false, true⟩) (pre hash d))) none
      obtain ⟨hinv, -⟩ := x.h.split hat x.hA rfl (by omega) rfl rfl hm (by rw [hlen]; exact hsw)
      obtain ⟨g1, g2⟩ := split_measures x.h hinv hat (by omega) hsw
      have e : m.swing cur ⟨some m.next, false, false⟩ (some (Node.inner (upd (fun _ => Word.null)
        (bitsAt (cfg.hash (cfg.key d0)) (LEVEL_BITS * d)) ⟨some a, false, true⟩) (pre hash d))) none = m' := h1
      rw [e] at g1 g2
      obtain ⟨b1, b2, -⟩ := bump_measures m'
      exact .of_room (by omega) (by omega)
  · next hne =>
    simp only [Prod.mk.injEq, Next.goto.injEq] at h
    obtain ⟨rfl, rfl, -⟩ := h
    refine ⟨hh, .retry rfl rfl rfl ?_⟩
    have : w ≠ node := by intro e; exact hne ⟨e, trivial⟩
    simp only [PC.ell, hraw, Option.some.injEq, this, if_false]; omega

theorem good_prune {tk : Nat} {c : Call K P} (x : Ctx cfg A m c.inv) (hi : PCInv cfg A m c) {parent : Loc} {child : Word}
    {i : Fin 16} {acc : PAcc} {k : Cont K P} {pc' : PC K P} {ran : Bool}
    (hpc : c.pc = .prune parent child i acc k)
    (hh : Helps m (.prune parent child i acc k : PC K P))
    (h : tick cfg m false (.prune parent child i acc k) = (m', .goto pc' ran)) :
    Good m m' tk (.prune parent child i acc k) pc' := by
  simp only [PCInv, hpc] at hi
  obtain ⟨hk, a, cs, q, rfl, hm, hhd, hloc, hacc⟩ := hi
  obtain ⟨w, hr, hat, hheld, hok⟩ := x.read (loc := .slot a i) (q := q ++ [i]) ⟨cs, q, hm, rfl, hhd⟩
  obtain ⟨cs', q', hm', -, rfl⟩ := hat
  rw [hm] at hm'; cases hm'
  have hevo := Evo.condemn i hm
  simp only [tick] at h
  unfold tickPrune at h
  simp only [hr] at h
  have key : m' = m.write (cs i).condemn (.slot a i) ∧
      ((∃ hlt acc', pc' = .prune parent ⟨some a, false, false⟩ ⟨i.val + 1, hlt⟩ acc' k) ∨
       (i.val = 15 ∧ ∃ acc', pc' = .pruneCas parent ⟨some a, false, false⟩ acc' k)) := by
    split at h
    · simp at h
    · split at h
      · simp only [Prod.mk.injEq, Next.goto.injEq] at h
        exact ⟨h.1.symm, Or.inl ⟨_, _, h.2.1.symm⟩⟩
      · split at h
        · simp at h
        · simp only [Prod.mk.injEq, Next.goto.injEq] at h
          exact ⟨h.1.symm, Or.inr ⟨by omega, _, h.2.1.symm⟩⟩
  clear h
  obtain ⟨rfl, key⟩ := key
  cases k with
  | clean deleted ref rest =>
    rcases key with ⟨hlt, acc', rfl⟩ | ⟨h15, acc', rfl⟩
    · exact ⟨trivial, .local1 rfl (by simp only [PC.loc1]; omega)⟩
    · exact ⟨trivial, .local1 rfl (by simp only [PC.loc1]; omega)⟩
  | trav st hash mode =>
    have hh' : Helps (m.write (cs i).condemn (.slot a i)) (.prune parent ⟨some a, false, false⟩ i acc (.trav st hash mode) : PC K P) :=
      Helps.evo (m' := (m.write (cs i).condemn (.slot a i)).bump) hh hevo
    obtain ⟨a', c', q', j, e1, e2, e3⟩ := hh
    simp only [Option.some.injEq] at e1
    subst e1
    rw [hm] at e2; cases e2
    have g : ∀ pc', pc'.ell m < PC.ell m (.prune parent ⟨some a, false, false⟩ i acc (.trav st hash mode) : PC K P) →
        GDec m (m.write (cs i).condemn (.slot a i)) (.prune parent ⟨some a, false, false⟩ i acc (.trav st hash mode)) pc' := by
      intro pc' hlt
      cases hc : (cs i).cond with
      | false =>
        obtain ⟨g1, g2, g3⟩ := condemn_measures x.h hm hc e3
        exact Or.inr ⟨g1, Or.inr ⟨g2, Or.inl g3⟩⟩
      | true =>
        have : m.write (cs i).condemn (.slot a i) = m := by
          rw [write_condemn i hm]
          have e : upd cs i (cs i).condemn = cs := by
            funext j; by_cases e : j = i
            · subst e; simp only [upd_same]; cases hw : cs j; simp_all [Word.condemn]
            · simp [upd_other _ _ e]
          rw [e]
          have : upd m.mem a (some (.inner cs q)) = m.mem := by
            funext b; by_cases e : b = a
            · subst e; simp [hm]
            · simp [upd_other _ _ e]
          rw [this]
        rw [this]
        exact .quiet rfl rfl rfl rfl hlt
    rcases key with ⟨hlt, acc', rfl⟩ | ⟨h15, acc', rfl⟩
    · exact ⟨hh', .global rfl rfl rfl (g _ (by simp only [PC.ell]; omega))⟩
    · exact ⟨trivial, .global rfl rfl rfl (g _ (by simp only [PC.ell]; omega))⟩
  | rem rkey =>
    have hh' : Helps (m.write (cs i).condemn (.slot a i)) (.prune parent ⟨some a, false, false⟩ i acc (.rem rkey) : PC K P) :=
      Helps.evo (m' := (m.write (cs i).condemn (.slot a i)).bump) hh hevo
    obtain ⟨a', c', q', j, e1, e2, e3⟩ := hh
    simp only [Option.some.injEq] at e1
    subst e1
    rw [hm] at e2; cases e2
    have g : ∀ pc', pc'.ell m < PC.ell m (.prune parent ⟨some a, false, false⟩ i acc (.rem rkey) : PC K P) →
        GDec m (m.write (cs i).condemn (.slot a i)) (.prune parent ⟨some a, false, false⟩ i acc (.rem rkey)) pc' := by
      intro pc' hlt
      cases hc : (cs i).cond with
      | false =>
        obtain ⟨g1, g2, g3⟩ := condemn_measures x.h hm hc e3
        exact Or.inr ⟨g1, Or.inr ⟨g2, Or.inl g3⟩⟩
      | true =>
        have : m.write (cs i).condemn (.slot a i) = m := by
          rw [write_condemn i hm]
          have e : upd cs i (cs i).condemn = cs := by
            funext j; by_cases e : j = i
            · subst e; simp only [upd_same]; cases hw : cs j; simp_all [Word.condemn]
            · simp [upd_other _ _ e]
          rw [e]
          have : upd m.mem a (some (.inner cs q)) = m.mem := by
            funext b; by_cases e : b = a
            · subst e; simp [hm]
            · simp [upd_other _ _ e]
          rw [this]
        rw [this]
        exact .quiet rfl rfl rfl rfl hlt
    rcases key with ⟨hlt, acc', rfl⟩ | ⟨h15, acc', rfl⟩
    · exact ⟨hh', .global rfl rfl rfl (g _ (by simp only [PC.ell]; omega))⟩
    · exact ⟨trivial, .global rfl rfl rfl (g _ (by simp only [PC.ell]; omega))⟩

theorem decide_clean {acc : PAcc} {c : Fin 16 → Word} (h : AccOK m c 16 acc) :
    match acc.decide.1 with
    | .word w => w.cond = false
    | .copy _ => True := by
  have := PAcc.decide_ok h []
  split
  · next w e => rw [e] at this; simp only at this; cases this <;> rfl
  · trivial

theorem good_pruneCas {tk : Nat} {c : Call K P} (x : Ctx cfg A m c.inv) (hi : PCInv cfg A m c) {parent : Loc} {child : Word}
    {acc : PAcc} {k : Cont K P} {pc' : PC K P} {ran : Bool}
    (hpc : c.pc = .pruneCas parent child acc k)
    (h : tick cfg m false (.pruneCas parent child acc k) = (m', .goto pc' ran)) :
    Good m m' tk (.pruneCas parent child acc k) pc' := by
  simp only [PCInv, hpc] at hi
  obtain ⟨hk, a, cs, q, rfl, hm, hh, hloc, hacc⟩ := hi
  obtain ⟨w, hr, hat, hheld, hok⟩ := x.read hloc
  have hraw := raw_of_read hr
  have hnn := x.h.fresh _ (Nat.le_refl _)
  have hderef : m.deref a = some (.inner cs q) := by simp [Mem.deref, x.hfree a hh, hm]
  -- the outcome
  have key : ∃ res, Next.goto pc' ran = afterPrune res k ∧
      ((w = ⟨some a, false, false⟩ ∧ m'.dmg < m.dmg) ∨ (w ≠ ⟨some a, false, false⟩ ∧ m' = m)) := by
    by_cases hsucc : w = ⟨some a, false, false⟩
    · subst hsucc
      have hsw := fun w' new ret => swing_swung hat hnn w' new ret
      have hdec := PAcc.decide_ok hacc q
      have hcl := decide_clean hacc
      cases hd : acc.decide with
      | mk ins res =>
        rw [hd] at hdec hcl
        refine ⟨res, ?_⟩
        cases ins with
        | word w' =>
          have htick : tick cfg m false (.pruneCas parent ⟨some a, false, false⟩ acc k) = (m.swing parent w' none (some a), afterPrune res k) := by
            simp [tick, tickPruneCas, hr, hderef, hd]; rfl
          rw [htick] at h
          simp only [Prod.mk.injEq] at h
          refine ⟨h.2.symm, Or.inl ⟨rfl, ?_⟩⟩
          rw [← h.1, ← (bump_measures _).1]
          exact prune_measures x.h hat hm (fun i => hacc.cond i i.isLt) hcl hdec (hsw _ _ _)
        | copy cells =>
          have htick : tick cfg m false (.pruneCas parent ⟨some a, false, false⟩ acc k) = (m.swing parent ⟨some m.next, false, false⟩ (some (.inner cells q)) (some a),
              afterPrune res k) := by
            simp [tick, tickPruneCas, hr, hderef, hd]; rfl
          rw [htick] at h
          simp only [Prod.mk.injEq] at h
          refine ⟨h.2.symm, Or.inl ⟨rfl, ?_⟩⟩
          rw [← h.1, ← (bump_measures _).1]
          exact prune_measures x.h hat hm (fun i => hacc.cond i i.isLt) rfl hdec (hsw _ _ _)
    · have htick : tick cfg m false (.pruneCas parent ⟨some a, false, false⟩ acc k) = (m, afterPrune .casFail k) := by
        simp [tick, tickPruneCas, hr, hderef, hsucc]
      rw [htick] at h
      simp only [Prod.mk.injEq] at h
      exact ⟨.casFail, h.2.symm, Or.inr ⟨hsucc, h.1.symm⟩⟩
  clear h
  obtain ⟨res, h1, h2⟩ := key
  cases k with
  | clean deleted ref rest =>
    simp only [afterPrune] at h1
    split at h1
    · cases h1
    · cases rest with
      | nil => simp [enterClean] at h1
      | cons y rest =>
        simp only [enterClean] at h1
        split at h1
        · cases h1
        · cases h1
          exact ⟨trivial, .local1 rfl (by simp only [PC.loc1, List.length_cons]; simp; omega)⟩
  | trav st hash mode =>
    simp only [afterPrune] at h1
    cases h1
    refine ⟨(by intro p ch e; cases e), .global rfl rfl rfl ?_⟩
    rcases h2 with ⟨-, h2⟩ | ⟨h2, rfl⟩
    · exact Or.inl h2
    · refine .quiet rfl rfl rfl rfl ?_
      simp only [PC.ell, stale, hraw, Option.some.injEq, h2, if_false, staleOpt]; omega
  | rem key =>
    simp only [afterPrune] at h1
    cases h1
    refine ⟨(by intro p ch e; cases e), .global rfl rfl rfl ?_⟩
    rcases h2 with ⟨-, h2⟩ | ⟨h2, rfl⟩
    · exact Or.inl h2
    · refine .quiet rfl rfl rfl rfl ?_
      simp only [PC.ell, stale, hraw, Option.some.injEq, h2, if_false, staleOpt, List.head?_nil]; omega

/-- Every step of a call that is not a spurious failure makes progress. -/
theorem tick_good {c : Call K P} (x : Ctx cfg A m c.inv) (hi : PCInv cfg A m c) (hh : Helps m c.pc) {pc' : PC K P} {ran : Bool}
    (h : tick cfg m false c.pc = (m', .goto pc' ran)) : Good m m' c.ticks c.pc pc' := by
  cases hpc : c.pc with
  | get key hash cur =>
    rw [hpc] at h
    refine good_get ?_ h
    simp only [PCInv, hpc] at hi
    obtain ⟨-, -, d, h1, h2, -⟩ := hi
    omega
  | isEmpty => rw [hpc] at h; exact good_isEmpty h
  | iterNew => rw [hpc] at h; exact good_iterNew h
  | iterNext lv out => rw [hpc] at h; exact good_iterNext h
  | trav st hash mode shift cur parent => rw [hpc] at h hh; exact good_trav hh h
  | travCas st hash mode shift cur parent node new kind =>
    rw [hpc] at h hh; exact good_travCas x hi hpc hh h
  | rem key shift cur levels => rw [hpc] at h hh; exact good_rem hh h
  | remCas key shift cur levels node new deleted => rw [hpc] at h hh; exact good_remCas hh h
  | count deleted ref parent child rest i cn => rw [hpc] at h; exact good_count h
  | prune parent child i acc k => rw [hpc] at h hh; exact good_prune x hi hpc hh h
  | pruneCas parent child acc k => rw [hpc] at h; exact good_pruneCas x hi hpc h

/-- A spurious failure of a weak CAS keeps `Helps`, too. -/
theorem tick_weak {c : Call K P} {pc' : PC K P} {ran : Bool}
    (h : tick cfg m true c.pc = (m', .goto pc' ran)) :
    tick cfg m false c.pc = (m', .goto pc' ran) ∨
    (m' = m ∧ pc'.rank = c.pc.rank ∧ (Helps m c.pc → Helps m pc')) := by
  cases hpc : c.pc with
  | travCas st hash mode shift cur parent node new kind =>
    right
    rw [hpc] at h
    simp only [tick, tickTravCas] at h
    split at h
    · simp at h
    · simp only [Bool.true_eq_false, and_false, if_false, Prod.mk.injEq, Next.goto.injEq] at h
      obtain ⟨rfl, rfl, -⟩ := h
      exact ⟨rfl, rfl, fun h => h⟩
  | remCas key shift cur levels node new deleted =>
    right
    rw [hpc] at h
    simp only [tick, tickRemCas] at h
    split at h
    · simp at h
    · simp only [Bool.true_eq_false, and_false, if_false, Prod.mk.injEq, Next.goto.injEq] at h
      obtain ⟨rfl, rfl, -⟩ := h
      exact ⟨rfl, rfl, fun h => h⟩
  | _ => left; rw [hpc] at h; exact h

end Contrie
