import Verif.Proof.Heal
/-
What overlapping removals have left behind on the way of a removal is gone when it returns, if it is the only removal by then.
-/
set_option linter.unusedSectionVars false
namespace Contrie
open scoped List
variable {K P : Type} [DecidableEq K] {cfg : Config K P} {A : Nat → AMap K P} {m m' : Mem P} {weak : Bool}

/-- The cells on the path `n` in nodes other than `a` are not condemned. -/
def Mem.ClearBut (m : Mem P) (n : List (Fin 16)) (a : Nat) : Prop :=
  ∀ b c p i, b ≠ a → m.mem b = some (.inner c p) → m.retired b = none → p ++ [i] <+: n → (c i).cond = false

/-- Only nodes in `X` may get condemned cells in a step. -/
def NewCondIn (m m' : Mem P) (X : Nat → Prop) : Prop := ∀ a n, m'.CondAt a n → m.CondAt a n ∨ X a

theorem NoNewCond.in (h : NoNewCond m m') (X : Nat → Prop) : NewCondIn m m' X := fun a n hc => .inl (h a n hc)

theorem Mem.ClearBut.keep {n : List (Fin 16)} {a : Nat} (h : m.ClearBut n a) (he : Evo m m') (hk : NewCondIn m m' (· = a)) : m'.ClearBut n a := by
  intro b c p i hb h1 h2 h3
  cases hc : (c i).cond with
  | false => rfl
  | true =>
    obtain ⟨c0, p0, g1, g2⟩ := (hk b i ⟨c, p, h1, hc⟩).resolve_right hb
    obtain ⟨c', g3, -⟩ := he.inner b c0 p0 g1
    rw [h1] at g3; cases g3
    have hr : m.retired b = none := by
      cases hr : m.retired b with
      | none => rfl
      | some τ => rw [he.retOld b τ hr] at h2; cases h2
    rw [h b c0 p i hb g1 hr h3] at g2; cases g2

theorem Mem.ClearBut.all {n : List (Fin 16)} {a τ : Nat} (h : m.ClearBut n a) (hr : m.retired a = some τ) (e : Nat) : m.ClearTo n e := by
  intro b c p i h1 h2 h3 _
  by_cases hb : b = a
  · subst hb; rw [hr] at h2; cases h2
  · exact h b c p i hb h1 h2 h3

theorem Mem.ClearTo.but {n : List (Fin 16)} (h : ∀ e, m.ClearTo n e) (a : Nat) : m.ClearBut n a :=
  fun b c p i _ h1 h2 h3 => h (p.length + 2) b c p i h1 h2 h3 (by omega)

/-- The cells a removal remembers are where they should be, and not condemned. -/
def Lv (m : Mem P) (h : BitVec 64) : List (Loc × Word) → Prop
  | [] => True
  | (l, _) :: rest => rest.length ≤ 16 ∧ (∃ w, m.At l (pre h rest.length) w ∧ w.cond = false) ∧ Lv m h rest

theorem Lv.keep {h : BitVec 64} {lv : List (Loc × Word)} (hl : Lv m h lv) (hi : MemInv cfg A m') (he : Evo m m') {X : Nat → Prop} (hk : NewCondIn m m' X)
    (hX : ∀ b c p, X b → m.mem b = some (.inner c p) → lv.length ≤ p.length + 1) : Lv m' h lv := by
  induction lv with
  | nil => trivial
  | cons x rest ih =>
    obtain ⟨l, ch⟩ := x
    obtain ⟨h1, ⟨w, h2, h3⟩, h4⟩ := hl
    refine ⟨h1, ?_, ih h4 (fun b c p hb hm => by have := hX b c p hb hm; simp only [List.length_cons] at this; omega)⟩
    cases l with
    | root => exact ⟨m'.root, ⟨h2.1, rfl⟩, hi.rootClean⟩
    | slot b i =>
      obtain ⟨c, p, g1, g2, g3⟩ := h2
      obtain ⟨c', g4, -⟩ := he.inner b c p g1
      refine ⟨c' i, ⟨c', p, g4, g2, rfl⟩, ?_⟩
      cases hc : (c' i).cond with
      | false => rfl
      | true =>
        rcases hk b i ⟨c', p, g4, hc⟩ with ⟨c0, p0, e1, e2⟩ | hb
        · rw [g1] at e1; cases e1
          rw [g3, h3] at e2; cases e2
        · exfalso
          have e1 := hX b c p hb g1
          have e2 := congrArg List.length g2
          rw [pre_length _ h1] at e2
          simp only [List.length_append, List.length_cons, List.length_nil] at e1 e2
          omega

theorem Lv.bump {h : BitVec 64} {lv : List (Loc × Word)} (hl : Lv m h lv) : Lv m.bump h lv := by
  induction lv with
  | nil => trivial
  | cons x rest ih => exact ⟨hl.1, hl.2.1, ih hl.2.2⟩

/-- The node a removal is condemning. -/
def PC.condemns : PC K P → Nat → Prop
  | .prune _ ch _ _ (.clean ..), a => ch.ptr = some a
  | _, _ => False

/-- A removal of a key with hash `h`: the cells it has passed are not condemned. -/
def RemHealPC (m : Mem P) (h : BitVec 64) : PC K P → Prop
  | .rem _ shift _ levels => (∀ d, shift = LEVEL_BITS * d → m.ClearTo (nibs h) d) ∧ Lv m h levels
  | .remCas _ shift _ levels _ _ _ => (∀ d, shift = LEVEL_BITS * d → m.ClearTo (nibs h) d) ∧ Lv m h levels
  | .count _ _ parent child rest _ _ => (∀ e, m.ClearTo (nibs h) e) ∧ Lv m h ((parent, child) :: rest)
  | .prune parent child _ _ (.clean _ _ rest) => (∀ a, child.ptr = some a → m.ClearBut (nibs h) a) ∧ Lv m h ((parent, child) :: rest)
  | .pruneCas parent child _ (.clean _ _ rest) => (∀ a, child.ptr = some a → m.ClearBut (nibs h) a) ∧ Lv m h ((parent, child) :: rest)
  | _ => True

theorem NewCondIn.none {X : Nat → Prop} (h : NewCondIn m m' X) (hX : ∀ a, ¬ X a) : NoNewCond m m' := fun a n hc => (h a n hc).resolve_right (hX a)

theorem RemHealPC.keep {c : Call K P} {h : BitVec 64} (hp : RemHealPC m h c.pc) (hpc : PCInv cfg A m c) (hi : MemInv cfg A m') (he : Evo m m')
    (hk : NewCondIn m m' c.pc.condemns) : RemHealPC m' h c.pc := by
  have lv : ∀ {lv : List (Loc × Word)}, NoNewCond m m' → Lv m h lv → Lv m' h lv := fun hn hl => hl.keep hi he (X := fun _ => False) (hn.in _) (fun _ _ _ h => h.elim)
  cases hc : c.pc with
  | rem key shift cur levels =>
    rw [hc] at hp hk
    have hn := hk.none (fun a h => h)
    exact ⟨fun d e => (hp.1 d e).keep he hn, lv hn hp.2⟩
  | remCas key shift cur levels node new deleted =>
    rw [hc] at hp hk
    have hn := hk.none (fun a h => h)
    exact ⟨fun d e => (hp.1 d e).keep he hn, lv hn hp.2⟩
  | count deleted ref parent child rest i cn =>
    rw [hc] at hp hk
    have hn := hk.none (fun a h => h)
    exact ⟨fun e => (hp.1 e).keep he hn, lv hn hp.2⟩
  | prune parent child i acc k =>
    cases k with
    | trav => trivial
    | rem => trivial
    | clean del ref rest =>
      simp only [PCInv, hc] at hpc
      rw [hc] at hp hk
      obtain ⟨-, a, cs, q, rfl, h2, h3, h4, h5⟩ := hpc
      have hk' : NewCondIn m m' (· = a) := fun b n hb => (hk b n hb).imp id (fun e => by cases e; rfl)
      refine ⟨fun b e => by cases e; exact (hp.1 a rfl).keep he hk', hp.2.keep hi he hk' ?_⟩
      rintro b c p rfl hm
      rw [h2] at hm; cases hm
      obtain ⟨g1, ⟨w, g2, -⟩, -⟩ := hp.2
      have e : q = pre h rest.length := by
        cases parent with
        | root => exact h4.trans g2.1.symm
        | slot b i =>
          obtain ⟨c1, p1, f1, f2, -⟩ := h4
          obtain ⟨c2, p2, f3, f4, -⟩ := g2
          rw [f1] at f3; cases f3
          rw [f2, f4]
      rw [e, pre_length _ g1]
      simp
  | pruneCas parent child acc k =>
    cases k with
    | trav => trivial
    | rem => trivial
    | clean del ref rest =>
      rw [hc] at hp hk
      have hn := hk.none (fun a h => h)
      exact ⟨fun a e => (hp.1 a e).keep he (hn.in _), lv hn hp.2⟩
  | _ => trivial

/-- What a step of a removal leads to. -/
def RemHealNext (m : Mem P) (h : BitVec 64) : Next K P → Prop
  | .goto pc _ => RemHealPC m h pc
  | .ret r _ => r = .op (.opt none) ∨ ∀ e, m.ClearTo (nibs h) e
  | .fail _ => True

theorem enterClean_remHeal {h : BitVec 64} {d : P} {r : Nat} {l : List (Loc × Word)} (hc : ∀ e, m.ClearTo (nibs h) e) (hl : Lv m h l) :
    RemHealNext (K := K) m h (enterClean d r l) := by
  cases l with
  | nil => exact .inr hc
  | cons x rest =>
    obtain ⟨p, ch⟩ := x
    simp only [enterClean]
    split
    · trivial
    · exact ⟨hc, hl⟩

theorem noNew_tick_in {pc : PC K P} (hq : pc.tidy) {X : Nat → Prop} (hp : ∀ p ch i acc k a, pc = .prune p ch i acc k → ch.ptr = some a → X a) :
    NewCondIn m (tick cfg m weak pc).1.bump X := by
  intro a n h
  rcases tick_condAt hq (show (tick cfg m weak pc).1.CondAt a n from h) with h | ⟨p, ch, acc, k, e, ha⟩
  · exact .inl h
  · exact .inr (hp _ _ _ _ _ _ e ha)

theorem tick_remHeal {c : Call K P} (x : Ctx cfg A m c.inv) (hi : PCInv cfg A m c) (htd : c.pc.tidy) {k : K} (hk : c.req = .op (.remove k))
    (he : Evo m (tick cfg m weak c.pc).1.bump) (hinv : MemInv cfg A (tick cfg m weak c.pc).1.bump)
    (h : RemHealPC m (cfg.hash k) c.pc) : RemHealNext (tick cfg m weak c.pc).1.bump (cfg.hash k) (tick cfg m weak c.pc).2 := by
  have keepN : (∀ p ch i acc k, c.pc ≠ .prune p ch i acc k) → RemHealPC (tick cfg m weak c.pc).1.bump (cfg.hash k) c.pc := fun hn =>
    h.keep hi hinv he (noNew_tick_in htd (fun p ch i acc k a e => absurd e (hn p ch i acc k)))
  cases hpc : c.pc with
  | rem key shift cur levels =>
    rw [hpc] at h
    simp only [PCInv, hpc] at hi
    obtain ⟨hreq, -, d, rfl, ht⟩ := hi
    rw [hk] at hreq; cases hreq
    obtain ⟨hd, hl⟩ := h
    have hd := hd d rfl
    obtain ⟨w, hr, hat, -, hok⟩ := x.read ht.loc
    simp only [tick, tickRem, hr]
    split
    · exact .inl rfl
    · next a ha =>
      split
      · split
        · trivial
        · simp only [enterPrune]
          repeat' split
          all_goals trivial
      · next hc =>
        simp only [Bool.not_eq_true] at hc
        have hcell := hd.cell x.h ht.len hat hc
        split
        · split
          · trivial
          · split
            · exact .inl rfl
            · exact ⟨fun d' e => by rw [← shift_inj e]; exact hd, hl.bump⟩
        · split
          · trivial
          · split
            · trivial
            · refine ⟨fun d' e => ?_, ?_⟩
              · have : d + 1 = d' := shift_inj (by rw [← e]; simp only [LEVEL_BITS]; omega)
                rw [← this]; exact hcell
              · exact ⟨by rw [ht.levels_len]; exact ht.len, ⟨w, by rw [ht.levels_len]; exact hat, hc⟩, hl.bump⟩
  | remCas key shift cur levels node new deleted =>
    have hkeep := keepN (by intro p ch i acc k e; rw [hpc] at e; cases e)
    rw [hpc] at hkeep hinv
    simp only [PCInv, hpc] at hi
    obtain ⟨hreq, -, d, a, items, rfl, ht, rfl, hheld, hmem, hdok, hnew, hfind⟩ := hi
    rw [hk] at hreq; cases hreq
    obtain ⟨w, hr, hat, -, hok⟩ := x.read ht.loc
    have hnn := x.h.fresh _ (Nat.le_refl _)
    obtain ⟨hd, hl⟩ := hkeep
    have hd := hd d rfl
    by_cases hsucc : w = ⟨some a, false, true⟩ ∧ weak = false
    · obtain ⟨rfl, rfl⟩ := hsucc
      have fin : ∀ (w' : Word) (nw : Option (Node P)) (nx : Next K P), w'.cond = false → w'.isLeaf →
          tick cfg m false (.remCas k (LEVEL_BITS * d) cur levels ⟨some a, false, true⟩ new deleted) = (m.swing cur w' nw (some a), nx) →
          ∀ e, (tick cfg m false (.remCas k (LEVEL_BITS * d) cur levels ⟨some a, false, true⟩ new deleted)).1.bump.ClearTo (nibs (cfg.hash k)) e := by
        intro w' nw nx hc hlf ht' e
        rw [ht'] at hd hinv ⊢
        have hat' := at_write hat hnn w' nw (some a)
        exact (hd.cell hinv ht.len hat' hc).leaf hinv ht.len (hinv.at_follow hat' hc) hlf e
      have hnx : (tick cfg m false (.remCas k (LEVEL_BITS * d) cur levels ⟨some a, false, true⟩ new deleted)).2 = (enterClean deleted a levels : Next K P) := by
        simp [tick, tickRemCas, hr]
      rw [hnx]
      refine enterClean_remHeal ?_ hl
      cases hnw : new with
      | nil =>
        rw [hnw] at fin
        exact fin Word.null none (enterClean deleted a levels) rfl (.inl rfl) (by simp [tick, tickRemCas, hr]; rfl)
      | cons y ys =>
        rw [hnw] at fin
        exact fin ⟨some m.next, false, true⟩ (some (.data (y :: ys))) (enterClean deleted a levels) rfl (.inr rfl) (by simp [tick, tickRemCas, hr]; rfl)
    · have htick : (tick cfg m weak (.remCas k (LEVEL_BITS * d) cur levels ⟨some a, false, true⟩ new deleted)).2 = (.goto (.rem k (LEVEL_BITS * d) cur levels) false : Next K P) := by
        simp [tick, tickRemCas, hr, hsucc]
      rw [htick]
      exact ⟨fun d' e => by rw [← shift_inj e]; exact hd, hl⟩
  | count deleted ref parent child rest i cn =>
    rw [hpc] at h
    obtain ⟨h1, h2⟩ := h
    have h2 := h2.bump
    simp only [tick, tickCount]
    split
    · trivial
    · split
      · trivial
      · next v _ =>
        generalize (if v.ptr.isSome = true then cn + 1 else cn) = cn'
        split
        · exact ⟨h1, h2⟩
        · split
          · exact .inr h1
          · have key : ∀ nx, enterPrune parent child (.clean deleted ref rest) = nx → RemHealNext (K := K) m.bump (cfg.hash k) nx := by
              intro nx e
              simp only [enterPrune] at e
              repeat' split at e
              all_goals (subst e; first | trivial | exact ⟨fun a _ => Mem.ClearTo.but h1 a, h2⟩)
            exact key _ rfl
  | prune parent child i acc k' =>
    cases k' with
    | clean del ref rest =>
      have hkeep := h.keep hi hinv he (noNew_tick_in (weak := weak) htd (fun p ch i acc k a e ha => by rw [hpc] at e ⊢; cases e; exact ha))
      rw [hpc] at hkeep
      obtain ⟨h1, h2⟩ := hkeep
      have key : ∀ nx, (tick cfg m weak (.prune parent child i acc (.clean del ref rest))).2 = nx →
          RemHealNext (tick cfg m weak (.prune parent child i acc (.clean del ref rest))).1.bump (cfg.hash k) nx := by
        intro nx e
        simp only [tick, tickPrune] at e
        repeat' split at e
        all_goals (subst e; first | trivial | exact ⟨h1, h2⟩)
      exact key _ rfl
    | trav =>
      simp only [tick, tickPrune]
      repeat' split
      all_goals trivial
    | rem =>
      simp only [tick, tickPrune]
      repeat' split
      all_goals trivial
  | pruneCas parent child acc k' =>
    cases k' with
    | trav st hash mode => simp only [PCInv, hpc] at hi; have := hi.1.1.insKey; rw [hk] at this; cases this
    | rem key =>
      have hz : ∀ (mm : Mem P) r, RemHealNext (K := K) mm (cfg.hash k) (afterPrune r (.rem key)) := by
        intro mm r
        refine ⟨fun d e => ?_, trivial⟩
        rw [← shift_inj (show LEVEL_BITS * 0 = LEVEL_BITS * d from e)]; exact Mem.ClearTo.zero _ _
      simp only [tick, tickPruneCas]
      repeat' split
      all_goals first
        | trivial
        | exact hz _ .casFail
    | clean del ref rest =>
      have hkeep := keepN (by intro p ch i acc k e; rw [hpc] at e; cases e)
      have hold := h
      rw [hpc] at hkeep hold
      obtain ⟨h1, h2⟩ := hkeep
      have key : ∀ a, child.ptr = some a → (∃ τ, (tick cfg m weak (.pruneCas parent child acc (.clean del ref rest))).1.retired a = some τ) → ∀ r,
          RemHealNext (K := K) (tick cfg m weak (.pruneCas parent child acc (.clean del ref rest))).1.bump (cfg.hash k) (afterPrune r (.clean del ref rest)) := by
        rintro a ha ⟨τ, hτ⟩ r
        have hall := (h1 a ha).all (τ := τ) hτ
        simp only [afterPrune]
        split
        · exact .inr hall
        · exact enterClean_remHeal hall h2.2.2
      simp only [PCInv, hpc] at hi
      obtain ⟨-, a, cs, q, rfl, g2, g3, g4, g5⟩ := hi
      have key := key a rfl
      obtain ⟨w, hr, hat, -, hok⟩ := x.read g4
      obtain ⟨f1, ⟨w', f2, f3⟩, f4⟩ := hold.2
      obtain ⟨e1, e2⟩ := At_unique f2 hat
      subst e2
      simp only [tick, tickPruneCas, hr] at key ⊢
      cases hdd : m.deref a with
      | none => simp only [hdd]; trivial
      | some nd =>
        cases nd with
        | data l => simp only [hdd]; trivial
        | inner c1 path =>
          simp only [hdd] at key ⊢
          by_cases e : w' = ⟨some a, false, false⟩
          · simp only [e, if_true] at key ⊢
            exact key (Exists.intro _ (upd_same _ _ _)) _
          · simp only [e, if_false] at key ⊢
            refine key ?_ _
            cases hret : m.retired a with
            | some τ => exact ⟨τ, rfl⟩
            | none =>
              exfalso
              apply e
              have u1 := x.h.inner_at g2 hret
              have u2 := x.h.at_follow hat f3
              rw [u1] at u2; cases u2; rfl
  | get key hash cur => simp only [PCInv, hpc] at hi; rw [hi.1] at hk; cases hk
  | isEmpty => simp only [PCInv, hpc] at hi; rw [hi.1] at hk; cases hk
  | iterNew => simp only [PCInv, hpc] at hi; rw [hi.1] at hk; cases hk
  | iterNext levels out => simp only [PCInv, hpc] at hi; rw [hi.1] at hk; cases hk
  | trav st hash mode shift cur parent =>
    simp only [PCInv, hpc] at hi
    obtain ⟨d, -, ht⟩ := hi
    have := ht.req.insKey; rw [hk] at this; cases this
  | travCas st hash mode shift cur parent node new kind =>
    simp only [PCInv, hpc] at hi
    obtain ⟨d, -, ht, -⟩ := hi
    have := ht.req.insKey; rw [hk] at this; cases this

end Contrie
