import Verif.Proof.Path
import Verif.Proof.Liveness
/-
How many steps a call needs at most when it runs alone: a natural number that goes down with every step.
-/
set_option linter.unusedSectionVars false
namespace Contrie
variable {K P : Type} [DecidableEq K]

theorem cnt_le_succ {α : Type} {s s' : Finset α} {p p' : α → Prop} (b : α) (h : ∀ a ∈ s, p a → a ≠ b → a ∈ s' ∧ p' a) :
    cnt s p ≤ cnt s' p' + 1 := by
  classical
  unfold cnt
  have : s.filter p ⊆ insert b (s'.filter p') := by
    intro a ha
    simp only [Finset.mem_filter, Finset.mem_insert] at ha ⊢
    by_cases e : a = b
    · exact .inl e
    · exact .inr (h a ha.1 ha.2 e)
  exact (Finset.card_le_card this).trans (Finset.card_insert_le _ _)

/-- Number of linked inner nodes on the path `n` that somebody has begun to condemn. -/
noncomputable def Mem.sick (m : Mem P) (n : List (Fin 16)) : Nat :=
  cnt (Finset.range m.next) (fun a => ∃ c p, m.mem a = some (.inner c p) ∧ m.retired a = none ∧ p <+: n ∧ ∃ i, (c i).cond = true)

/-- Number of linked inner nodes on the path `n`. -/
noncomputable def Mem.solid (m : Mem P) (n : List (Fin 16)) : Nat :=
  cnt (Finset.range m.next) (fun a => ∃ c p, m.mem a = some (.inner c p) ∧ m.retired a = none ∧ p <+: n)

theorem sick_le_solid (m : Mem P) (n : List (Fin 16)) : m.sick n ≤ m.solid n := by
  refine cnt_le ?_
  rintro a ha ⟨c, p, h1, h2, h3, -⟩
  exact ⟨ha, c, p, h1, h2, h3⟩

theorem MemInv.solid_le {cfg : Config K P} {A : Nat → AMap K P} {m : Mem P} (h : MemInv cfg A m) (n : List (Fin 16)) : m.solid n ≤ 16 := by
  classical
  let f : Nat → Nat := fun a => match m.mem a with
    | some (.inner _ p) => p.length
    | _ => 0
  have : m.solid n ≤ (Finset.range 16).card := by
    unfold Mem.solid cnt
    refine Finset.card_le_card_of_injOn f ?_ ?_
    · intro a ha
      simp only [Finset.coe_filter, Set.mem_setOf_eq] at ha
      obtain ⟨-, c, p, h1, h2, h3⟩ := ha
      simp only [f, h1, Finset.coe_range, Set.mem_Iio]
      exact (h.nodeOK a c p h1).1
    · intro a ha b hb hab
      simp only [Finset.coe_filter, Set.mem_setOf_eq] at ha hb
      obtain ⟨-, c, p, h1, h2, h3⟩ := ha
      obtain ⟨-, c', p', h1', h2', h3'⟩ := hb
      simp only [f, h1, h1'] at hab
      have e : p = p' := by
        rw [List.prefix_iff_eq_take] at h3 h3'
        rw [h3, h3', hab]
      subst e
      have e1 := h.inner_at h1 h2
      have e2 := h.inner_at h1' h2'
      rw [e1] at e2; cases e2; rfl
  simpa using this

theorem sick_same {m m' : Mem P} (hm : m'.mem = m.mem) (hn : m'.next = m.next) (ht : m'.retired = m.retired) (n : List (Fin 16)) :
    m'.sick n = m.sick n ∧ m'.solid n = m.solid n := by
  simp only [Mem.sick, Mem.solid, hm, hn, ht, and_self]

/-- Condemning one more cell of a node that is already being condemned. -/
theorem condemn_sick {m : Mem P} {a : Nat} {c : Fin 16 → Word} {p : List (Fin 16)} {i j : Fin 16}
    (hm : m.mem a = some (.inner c p)) (hj : (c j).cond = true) (n : List (Fin 16)) :
    (m.write (c i).condemn (.slot a i)).sick n = m.sick n ∧ (m.write (c i).condemn (.slot a i)).solid n = m.solid n := by
  have hw := write_condemn i hm
  generalize hm1 : m.write (c i).condemn (.slot a i) = m1 at *
  have hn : m1.next = m.next := by rw [hw]
  have hret : m1.retired = m.retired := by rw [hw]
  have hma : m1.mem a = some (.inner (upd c i (c i).condemn) p) := by rw [hw]; simp
  have hmo : ∀ b, b ≠ a → m1.mem b = m.mem b := by intro b hb; rw [hw]; simp [upd_other _ _ hb]
  constructor
  · simp only [Mem.sick, hn, hret]
    apply cnt_congr
    intro b _
    by_cases hb : b = a
    · subst hb
      rw [hma, hm]
      constructor
      · rintro ⟨c', p', e, h1, h2, -⟩; cases e; exact ⟨c, p, rfl, h1, h2, j, hj⟩
      · rintro ⟨c', p', e, h1, h2, -⟩; cases e; exact ⟨_, _, rfl, h1, h2, i, by simp⟩
    · rw [hmo b hb]
  · simp only [Mem.solid, hn, hret]
    apply cnt_congr
    intro b _
    by_cases hb : b = a
    · subst hb
      rw [hma, hm]
      constructor
      · rintro ⟨c', p', e, h1, h2⟩; cases e; exact ⟨c, p, rfl, h1, h2⟩
      · rintro ⟨c', p', e, h1, h2⟩; cases e; exact ⟨_, _, rfl, h1, h2⟩
    · rw [hmo b hb]

/-- A leaf is pushed down. -/
theorem split_sick {cfg : Config K P} {A : Nat → AMap K P} {m m' : Mem P} {loc : Loc} {q n : List (Fin 16)}
    (h : MemInv cfg A m) {a : Nat} {i : Fin 16} (hqn : q <+: n)
    (hs : Swung m m' loc ⟨some m.next, false, false⟩
      (some (.inner (upd (fun _ => Word.null) i ⟨some a, false, true⟩) q)) none) :
    m'.sick n ≤ m.sick n ∧ m.solid n < m'.solid n := by
  have hnn := h.fresh _ (Nat.le_refl m.next)
  have hnm : m'.mem m.next = some (.inner (upd (fun _ => Word.null) i ⟨some a, false, true⟩) q) := by
    rw [hs.fresh _ hnn]; simp
  have hret : ∀ b, m'.retired b = m.retired b := by intro b; have := hs.retired b; simpa using this
  constructor
  · apply cnt_le
    rintro b - ⟨c', p', h1, h2, h0, j, h3⟩
    rw [Finset.mem_range]
    cases hmb : m.mem b with
    | none =>
      rw [hs.fresh b hmb] at h1
      split at h1
      · cases h1
        by_cases e : j = i
        · subst e; simp at h3
        · simp [upd_other _ _ e] at h3
      · cases h1
    | some nd =>
      cases nd with
      | data l => rw [hs.data b l hmb] at h1; cases h1
      | inner c p =>
        rw [hs.node b c p hmb] at h1; cases h1
        refine ⟨h.lt_next hmb, c, p', rfl, by rw [← hret]; exact h2, h0, j, ?_⟩
        simp only at h3
        split at h3
        · cases h3
        · exact h3
  · refine cnt_lt ?_ m.next ?_ ?_ ?_
    · rintro b hb ⟨c, p, h1, h2, h3⟩
      simp only [Finset.mem_range] at hb ⊢
      refine ⟨?_, _, _, hs.node b c p h1, by rw [hret]; exact h2, h3⟩
      rw [hs.next]; simp; omega
    · simp only [Finset.mem_range]; rw [hs.next]; simp
    · refine ⟨_, _, hnm, ?_, hqn⟩
      rw [hret]
      cases hr : m.retired m.next with
      | none => rfl
      | some τ => exact absurd hnn (h.retTime _ _ hr).2
    · rintro ⟨c, p, h1, -⟩
      rw [hnn] at h1; cases h1

/-- A condemned node is unlinked. -/
theorem prune_sick {cfg : Config K P} {A : Nat → AMap K P} {m m' : Mem P} {loc : Loc} {q n : List (Fin 16)}
    (h : MemInv cfg A m) {a : Nat} {c : Fin 16 → Word} (hqn : q <+: n)
    (hat : m.At loc q ⟨some a, false, false⟩) (hm : m.mem a = some (.inner c q)) (hfr : ∀ i, (c i).cond = true)
    {w' : Word} {new : Option (Node P)} (hc' : w'.cond = false) (hok : PruneOK m q c w' new)
    (hs : Swung m m' loc w' new (some a)) : m'.sick n < m.sick n ∧ m.solid n ≤ m'.solid n + 1 := by
  have hnn := h.fresh _ (Nat.le_refl m.next)
  constructor
  · refine cnt_lt ?_ a ?_ ?_ ?_
    · rintro b - ⟨c', p', h1, h2, h0, j, h3⟩
      rw [Finset.mem_range]
      cases hmb : m.mem b with
      | none =>
        rw [hs.fresh b hmb] at h1
        split at h1
        · cases hok with
          | null => cases h1
          | single => cases h1
          | copy => cases h1; simp at h3
        · cases h1
      | some nd =>
        cases nd with
        | data l => rw [hs.data b l hmb] at h1; cases h1
        | inner c p =>
          rw [hs.node b c p hmb] at h1; cases h1
          refine ⟨h.lt_next hmb, c, p', rfl, ?_, h0, j, ?_⟩
          · have := hs.retired b
            rw [this] at h2
            split at h2
            · cases h2
            · exact h2
          · simp only at h3
            split at h3
            · rw [hc'] at h3; cases h3
            · exact h3
    · rw [Finset.mem_range]; exact h.lt_next hm
    · exact ⟨c, q, hm, h.live q _ a (h.at_follow hat rfl) rfl, hqn, 0, hfr 0⟩
    · rintro ⟨c', p', h1, h2, -⟩
      rw [hs.retired] at h2; simp at h2
  · refine cnt_le_succ a ?_
    rintro b hb ⟨c, p, h1, h2, h3⟩ hne
    simp only [Finset.mem_range] at hb ⊢
    refine ⟨?_, _, _, hs.node b c p h1, ?_, h3⟩
    · rw [hs.next]; split <;> omega
    · rw [hs.retired]; rw [if_neg (by simpa using fun e => hne e.symm)]; exact h2

/-- A remembered pair is out of date. -/
def late (m : Mem P) (x : Loc × Word) : Nat := if m.raw x.1 = some x.2 then 0 else 40

def lateOpt (m : Mem P) : Option (Loc × Word) → Nat
  | none => 0
  | some x => late m x

/-- Bound for the steps left of a call that runs alone, apart from what is to be repaired on its path. -/
def PC.near (m : Mem P) (tk : Nat) : PC K P → Nat
  | .get .. => 16 - tk
  | .trav _ _ _ shift _ parent => 20 + (16 - shift / 4) + lateOpt m parent
  | .travCas _ _ _ shift cur parent node _ _ => 19 + (16 - shift / 4) + (if m.raw cur = some node then 0 else 2) + lateOpt m parent
  | .rem _ shift _ levels => 528 + 20 + (16 - shift / 4) + lateOpt m levels.head?
  | .remCas _ shift cur levels node _ _ => 528 + 19 + (16 - shift / 4) + (if m.raw cur = some node then 0 else 2) + lateOpt m levels.head?
  | .prune p ch i _ (.trav ..) => (17 - i.val) + late m (p, ch)
  | .prune p ch i _ (.rem ..) => 528 + (17 - i.val) + late m (p, ch)
  | .pruneCas p ch _ (.trav ..) => 1 + late m (p, ch)
  | .pruneCas p ch _ (.rem ..) => 528 + 1 + late m (p, ch)
  | .count _ _ _ _ rest i _ => rest.length * 33 + 17 + (16 - i.val)
  | .prune _ _ i _ (.clean _ _ rest) => rest.length * 33 + 1 + (16 - i.val)
  | .pruneCas _ _ _ (.clean _ _ rest) => rest.length * 33 + 1
  | _ => 0

/-- What is to be repaired on the path, and (for insertions) how far a leaf can be pushed down. -/
noncomputable def PC.far (m : Mem P) (n : List (Fin 16)) : PC K P → Nat
  | .trav .. => 40 * m.sick n + 2 * (16 - m.solid n)
  | .travCas .. => 40 * m.sick n + 2 * (16 - m.solid n)
  | .rem .. => 40 * m.sick n
  | .remCas .. => 40 * m.sick n
  | .prune _ _ _ _ (.trav ..) => 40 * m.sick n + 2 * (16 - m.solid n)
  | .prune _ _ _ _ (.rem ..) => 40 * m.sick n
  | .pruneCas _ _ _ (.trav ..) => 40 * m.sick n + 2 * (16 - m.solid n)
  | .pruneCas _ _ _ (.rem ..) => 40 * m.sick n
  | _ => 0

noncomputable def PC.cost (m : Mem P) (n : List (Fin 16)) (tk : Nat) (pc : PC K P) : Nat := pc.near m tk + pc.far m n

theorem near_mem {m m' : Mem P} (hm : m'.mem = m.mem) (hr : m'.root = m.root) (tk : Nat) (pc : PC K P) : pc.near m' tk = pc.near m tk := by
  have h1 : m'.raw = m.raw := by
    funext l; cases l <;> simp only [Mem.raw, hm, hr]
  have h2 : late m' = late m := by funext x; simp only [late, h1]
  have h3 : lateOpt m' = lateOpt m := by funext x; cases x <;> simp only [lateOpt, h2]
  unfold PC.near
  simp only [h1, h2, h3]

theorem cost_bump (m : Mem P) (n : List (Fin 16)) (tk : Nat) (pc : PC K P) : pc.cost m.bump n tk = pc.cost m n tk := by
  have h : pc.near m.bump tk = pc.near m tk := near_mem rfl rfl _ _
  unfold PC.cost
  rw [h]; rfl

variable {cfg : Config K P} {A : Nat → AMap K P} {m m' : Mem P}

theorem cost_get {tk : Nat} {n : List (Fin 16)} {key : K} {hash : BitVec 64} {cur : Loc} {pc' : PC K P} {ran : Bool} (htk : ∀ k h l, pc' = .get k h l → tk + 1 ≤ 16)
    (h : tick cfg m false (.get key hash cur) = (m', .goto pc' ran)) : pc'.cost m' n (tk + 1) < (PC.get key hash cur : PC K P).cost m n tk := by
  simp only [tick, Prod.mk.injEq] at h
  obtain ⟨rfl, h⟩ := h
  simp only [tickGet] at h
  repeat' split at h
  all_goals first
    | (cases h; done)
    | (cases h; have := htk _ _ _ rfl; simp only [PC.cost, PC.near, PC.far]; omega)

theorem cost_trav {tk : Nat} {n : List (Fin 16)} {st : TState K P} {hash : BitVec 64} {mode : Mode} {shift : Nat} {cur : Loc}
    {parent : Option (Loc × Word)} {pc' : PC K P} {ran : Bool}
    (h : tick cfg m false (.trav st hash mode shift cur parent) = (m', .goto pc' ran)) :
    pc'.cost m' n (tk + 1) < (PC.trav st hash mode shift cur parent : PC K P).cost m n tk := by
  simp only [tick, Prod.mk.injEq] at h
  obtain ⟨rfl, h⟩ := h
  unfold tickTrav at h
  split at h
  · cases h
  · next node hr =>
    have hraw := raw_of_read hr
    split at h
    · next hcond =>
      split at h
      · cases h
      · next p child =>
        simp only [enterPrune] at h
        repeat' split at h
        all_goals first
          | (cases h; done)
          | (cases h; simp only [PC.cost, PC.near, PC.far, lateOpt]; simp; omega)
    · have cas : ∀ st' new kind,
          (PC.travCas st' hash mode shift cur parent node new kind : PC K P).cost m n (tk + 1) < (PC.trav st hash mode shift cur parent : PC K P).cost m n tk := by
        intro st' new kind
        simp only [PC.cost, PC.near, PC.far, hraw, if_true]; omega
      split at h
      · cases h; exact cas _ _ _
      · next a hp =>
        split at h
        · split at h
          · cases h
          · cases h
          · split at h
            · split at h <;> cases h
              exact cas _ _ _
            · simp only at h
              split at h
              · cases h; exact cas _ _ _
              · simp only [finishTrav] at h
                split at h
                · cases h
                · split at h <;> cases h
        · split at h
          · cases h
          · next hsh =>
            cases h
            simp only [PC.cost, PC.near, PC.far, lateOpt, late, hraw, if_true, HASH_BITS, LEVEL_BITS] at hsh ⊢; omega

theorem cost_rem {tk : Nat} {n : List (Fin 16)} {key : K} {shift : Nat} {cur : Loc} {levels : List (Loc × Word)} {pc' : PC K P} {ran : Bool}
    (h : tick cfg m false (.rem key shift cur levels) = (m', .goto pc' ran)) :
    pc'.cost m' n (tk + 1) < (PC.rem key shift cur levels : PC K P).cost m n tk := by
  simp only [tick, Prod.mk.injEq] at h
  obtain ⟨rfl, h⟩ := h
  unfold tickRem at h
  split at h
  · cases h
  · next node hr =>
    have hraw := raw_of_read hr
    split at h
    · cases h
    · next a hp =>
      split at h
      · next hcond =>
        split at h
        · cases h
        · next p child rest =>
          simp only [enterPrune] at h
          repeat' split at h
          all_goals first
            | (cases h; done)
            | (cases h; simp only [PC.cost, PC.near, PC.far, lateOpt, List.head?_cons]; simp; omega)
      · split at h
        · split at h
          · cases h
          · split at h
            · cases h
            · cases h
              simp only [PC.cost, PC.near, PC.far, hraw, if_true]; omega
        · split at h
          · cases h
          split at h
          · cases h
          · next hsh =>
            cases h
            simp only [PC.cost, PC.near, PC.far, lateOpt, List.head?_cons, late, hraw, if_true, HASH_BITS, LEVEL_BITS] at hsh ⊢; omega

theorem cost_remCas {tk : Nat} {n : List (Fin 16)} {key : K} {shift : Nat} {cur : Loc}
    {levels : List (Loc × Word)} {node : Word} {new : List P} {deleted : P} {pc' : PC K P} {ran : Bool} (hlev : levels.length ≤ 16)
    (h : tickRemCas m false key shift cur levels node new deleted = (m', .goto pc' ran)) :
    pc'.cost m' n (tk + 1) < (PC.remCas key shift cur levels node new deleted : PC K P).cost m n tk := by
  unfold tickRemCas at h
  split at h
  · simp at h
  · next w hr =>
    have hraw := raw_of_read hr
    split at h
    · simp only at h
      split at h
      · simp at h
      · split at h
        · simp at h
        · simp only [Prod.mk.injEq] at h
          obtain ⟨-, h⟩ := h
          cases levels with
          | nil => simp [enterClean] at h
          | cons y rest =>
            simp only [enterClean] at h
            split at h
            · cases h
            · cases h
              simp only [List.length_cons] at hlev
              simp only [PC.cost, PC.near, PC.far]
              simp
              omega
    · next hne =>
      simp only [Prod.mk.injEq, Next.goto.injEq] at h
      obtain ⟨rfl, rfl, -⟩ := h
      have : w ≠ node := by intro e; exact hne ⟨e, rfl⟩
      simp only [PC.cost, PC.near, PC.far, hraw, Option.some.injEq, this, if_false]; omega

theorem cost_count {tk : Nat} {n : List (Fin 16)} {deleted : P} {ref : Nat} {parent : Loc} {child : Word} {rest : List (Loc × Word)}
    {i : Fin 16} {cn : Nat} {pc' : PC K P} {ran : Bool}
    (h : (m, tickCount m deleted ref parent child rest i cn) = (m', .goto pc' ran)) :
    pc'.cost m' n (tk + 1) < (PC.count deleted ref parent child rest i cn : PC K P).cost m n tk := by
  simp only [Prod.mk.injEq] at h
  obtain ⟨rfl, h⟩ := h
  unfold tickCount at h
  split at h
  · cases h
  split at h
  · cases h
  next w _ =>
  simp only at h
  generalize (if w.ptr.isSome = true then cn + 1 else cn) = cn' at h
  split at h
  · cases h
    simp only [PC.cost, PC.near, PC.far]; omega
  · split at h
    · cases h
    · simp only [enterPrune] at h
      repeat' split at h
      all_goals first
        | (cases h; done)
        | (cases h; simp only [PC.cost, PC.near, PC.far]; simp; omega)

theorem raw_swung {loc l : Loc} {w' w : Word} {new : Option (Node P)} {ret : Option Nat} (hs : Swung m m' loc w' new ret)
    (hl : l ≠ loc) (h : m.raw l = some w) : m'.raw l = some w := by
  cases l with
  | root => simp only [Mem.raw, hs.root]; rw [if_neg (fun e => hl e.symm)]; exact h
  | slot a i =>
    simp only [Mem.raw] at h ⊢
    split at h
    · next c p hm =>
      rw [hs.node a c p hm]
      simp only
      rw [if_neg (fun e => hl e.symm)]; exact h
    · cases h

theorem cost_travCas {c : Call K P} (x : Ctx cfg A m c.inv) (hi : PCInv cfg A m c) {o : Op K P} (ho : c.req = .op o) {st : TState K P} {hash : BitVec 64}
    {mode : Mode} {shift : Nat} {cur : Loc}
    {parent : Option (Loc × Word)} {node : Word} {new : Node P} {kind : TKind P} {pc' : PC K P} {ran : Bool}
    (hpc : c.pc = .travCas st hash mode shift cur parent node new kind)
    (hh : Helps m (.travCas st hash mode shift cur parent node new kind : PC K P)) {tk : Nat}
    (h : tick cfg m false (.travCas st hash mode shift cur parent node new kind) = (m', .goto pc' ran)) :
    pc'.cost m' (nibs (cfg.hash (o.key cfg.key))) (tk + 1) <
      (PC.travCas st hash mode shift cur parent node new kind : PC K P).cost m (nibs (cfg.hash (o.key cfg.key))) tk := by
  simp only [PCInv, hpc] at hi
  obtain ⟨d, rfl, ht, hcas⟩ := hi
  obtain ⟨w, hr, hat, hheld, hok⟩ := x.read ht.loc
  have hraw := raw_of_read hr
  obtain ⟨o', ho', hk⟩ := ht.req.key
  rw [ho] at ho'; cases ho'
  simp only [tick] at h
  unfold tickTravCas at h
  rw [hr] at h
  simp only at h
  split at h
  · next hsucc =>
    have fin : ∀ {m1 : Mem P} {r refs}, (m1, finishTrav mode r refs) = (m', .goto pc' ran) → False := by
      intro m1 r refs h
      simp only [finishTrav] at h
      split at h
      · cases h
      · split at h <;> cases h
    cases hcas with
    | fresh p hst =>
      simp only at h
      split at h <;> exact (fin h).elim
    | replace a p items hst hh hm hok hdeep hmode =>
      simp only [Bool.true_eq_false, if_false] at h
      split at h <;> exact (fin h).elim
    | split a d0 hh' hm hd hne =>
      obtain ⟨rfl, -⟩ := hsucc
      simp only [Prod.mk.injEq, Next.goto.injEq] at h
      obtain ⟨h1, rfl, -⟩ := h
      have hnn := x.h.fresh _ (Nat.le_refl _)
      have hlen : (pre hash d).length = d := pre_length _ ht.len
      have hsw := swing_swung hat hnn ⟨some m.next, false, false⟩ (some (Node.inner (upd (fun _ => Word.null)
        (bitsAt (cfg.hash (cfg.key d0)) (LEVEL_BITS * d)) ⟨some a, false, true⟩) (pre hash d))) none
      obtain ⟨hinv, -⟩ := x.h.split hat x.hA rfl (by omega) rfl rfl hm (by rw [hlen]; exact hsw)
      have hqn : pre hash d <+: nibs (cfg.hash (o.key cfg.key)) := by rw [hk, ← ht.hashEq]; exact pre_prefix _ _
      obtain ⟨g1, g2⟩ := split_sick x.h hqn hsw
      have g3 := hinv.solid_le (nibs (cfg.hash (o.key cfg.key)))
      have hlate : lateOpt (m.swing cur ⟨some m.next, false, false⟩ (some (Node.inner (upd (fun _ => Word.null)
        (bitsAt (cfg.hash (cfg.key d0)) (LEVEL_BITS * d)) ⟨some a, false, true⟩) (pre hash d))) none).bump parent ≤ lateOpt m parent := by
        cases parent with
        | none => exact Nat.le_refl _
        | some y =>
          simp only [lateOpt, late]
          by_cases e : m.raw y.1 = some y.2
          · rw [if_pos (raw_swung hsw ?_ e)]
            · omega
            · intro e'
              obtain ⟨a', i', e1, e2⟩ := hh y.1 y.2 rfl
              obtain ⟨a2, c2, q2, f1, f2, -, f4⟩ := ht.par y rfl
              rw [f1] at e2; cases e2
              rw [e', e1] at f4
              obtain ⟨c3, p3, k1, k2, -⟩ := f4
              rw [f2] at k1; cases k1
              have := congrArg List.length k2
              simp at this
          · rw [if_neg e]; split <;> omega
      have e : m.swing cur ⟨some m.next, false, false⟩ (some (Node.inner (upd (fun _ => Word.null)
        (bitsAt (cfg.hash (cfg.key d0)) (LEVEL_BITS * d)) ⟨some a, false, true⟩) (pre hash d))) none = m' := h1
      rw [e] at g1 g2 g3 hlate
      have e1 := cost_bump m' (nibs (cfg.hash (o.key cfg.key))) (tk + 1) (PC.trav st hash mode (LEVEL_BITS * d) cur parent)
      rw [← e1]
      simp only [PC.cost, PC.near, PC.far, hraw, if_true]
      omega
  · next hne =>
    simp only [Prod.mk.injEq, Next.goto.injEq] at h
    obtain ⟨rfl, rfl, -⟩ := h
    have : w ≠ node := by intro e; exact hne ⟨e, trivial⟩
    simp only [PC.cost, PC.near, PC.far, hraw, Option.some.injEq, this, if_false]; omega

theorem cost_prune {c : Call K P} (x : Ctx cfg A m c.inv) (hi : PCInv cfg A m c) {n : List (Fin 16)} {parent : Loc} {child : Word}
    {i : Fin 16} {acc : PAcc} {k : Cont K P} {pc' : PC K P} {ran : Bool}
    (hpc : c.pc = .prune parent child i acc k)
    (hh : Helps m (.prune parent child i acc k : PC K P)) {tk : Nat}
    (h : tick cfg m false (.prune parent child i acc k) = (m', .goto pc' ran)) :
    pc'.cost m' n (tk + 1) < (PC.prune parent child i acc k : PC K P).cost m n tk := by
  simp only [PCInv, hpc] at hi
  obtain ⟨hk, a, cs, q, rfl, hm, hhd, hloc, hacc⟩ := hi
  obtain ⟨w, hr, hat, hheld, hok⟩ := x.read (loc := .slot a i) (q := q ++ [i]) ⟨cs, q, hm, rfl, hhd⟩
  obtain ⟨cs', q', hm', -, rfl⟩ := hat
  rw [hm] at hm'; cases hm'
  simp only [tick] at h
  unfold tickPrune at h
  simp only [hr] at h
  have key : m' = m.write (cs i).condemn (.slot a i) ∧
      ((∃ hlt acc', pc' = .prune parent ⟨some a, false, false⟩ ⟨i.val + 1, hlt⟩ acc' k) ∨
       (i.val = 15 ∧ ∃ acc', pc' = .pruneCas parent ⟨some a, false, false⟩ acc' k)) := by
    split at h
    · simp at h
    · split at h
      · simp only [Prod.mk.injEq, Next.goto.injEq] at h
        exact ⟨h.1.symm, Or.inl ⟨_, _, h.2.1.symm⟩⟩
      · split at h
        · simp at h
        · simp only [Prod.mk.injEq, Next.goto.injEq] at h
          exact ⟨h.1.symm, Or.inr ⟨by omega, _, h.2.1.symm⟩⟩
  clear h
  obtain ⟨rfl, key⟩ := key
  have hlate : late (m.write (cs i).condemn (.slot a i)) (parent, ⟨some a, false, false⟩) = late m (parent, ⟨some a, false, false⟩) := by
    have : (m.write (cs i).condemn (.slot a i)).raw parent = m.raw parent := by
      rw [write_condemn i hm]
      cases parent with
      | root => rfl
      | slot b j =>
        simp only [Mem.raw]
        by_cases e : b = a
        · subst e
          obtain ⟨c3, p3, k1, k2, -⟩ := hloc
          rw [hm] at k1; cases k1
          have := congrArg List.length k2
          simp at this
        · rw [upd_other _ _ e]
    simp only [late, this]
  cases k with
  | clean deleted ref rest =>
    rcases key with ⟨hlt, acc', rfl⟩ | ⟨h15, acc', rfl⟩
    · simp only [PC.cost, PC.near, PC.far]; omega
    · simp only [PC.cost, PC.near, PC.far]; omega
  | trav st hash mode =>
    obtain ⟨a', c', q', j, e1, e2, e3⟩ := hh
    simp only [Option.some.injEq] at e1
    subst e1
    rw [hm] at e2; cases e2
    obtain ⟨g1, g2⟩ := condemn_sick (i := i) hm e3 n
    rcases key with ⟨hlt, acc', rfl⟩ | ⟨h15, acc', rfl⟩
    · simp only [PC.cost, PC.near, PC.far, g1, g2, hlate]; omega
    · simp only [PC.cost, PC.near, PC.far, g1, g2, hlate]; omega
  | rem rkey =>
    obtain ⟨a', c', q', j, e1, e2, e3⟩ := hh
    simp only [Option.some.injEq] at e1
    subst e1
    rw [hm] at e2; cases e2
    obtain ⟨g1, g2⟩ := condemn_sick (i := i) hm e3 n
    rcases key with ⟨hlt, acc', rfl⟩ | ⟨h15, acc', rfl⟩
    · simp only [PC.cost, PC.near, PC.far, g1, hlate]; omega
    · simp only [PC.cost, PC.near, PC.far, g1, hlate]; omega

theorem cost_pruneCas {c : Call K P} (x : Ctx cfg A m c.inv) (hi : PCInv cfg A m c) {n : List (Fin 16)} {parent : Loc} {child : Word}
    {acc : PAcc} {k : Cont K P} {pc' : PC K P} {ran : Bool}
    (hpc : c.pc = .pruneCas parent child acc k)
    (hon : ∃ a c q, child.ptr = some a ∧ m.mem a = some (.inner c q) ∧ q <+: n) {tk : Nat}
    (h : tick cfg m false (.pruneCas parent child acc k) = (m', .goto pc' ran)) :
    pc'.cost m' n (tk + 1) < (PC.pruneCas parent child acc k : PC K P).cost m n tk := by
  simp only [PCInv, hpc] at hi
  obtain ⟨hk, a, cs, q, rfl, hm, hh, hloc, hacc⟩ := hi
  obtain ⟨a', c', q', e1, e2, hqn⟩ := hon
  simp only [Option.some.injEq] at e1
  subst e1
  rw [hm] at e2; cases e2
  obtain ⟨w, hr, hat, hheld, hok⟩ := x.read hloc
  have hraw := raw_of_read hr
  have hnn := x.h.fresh _ (Nat.le_refl _)
  have hderef : m.deref a = some (.inner cs q) := by simp [Mem.deref, x.hfree a hh, hm]
  have key : ∃ res, Next.goto pc' ran = afterPrune res k ∧
      ((w = ⟨some a, false, false⟩ ∧ m'.sick n < m.sick n ∧ m.solid n ≤ m'.solid n + 1) ∨ (w ≠ ⟨some a, false, false⟩ ∧ m' = m)) := by
    by_cases hsucc : w = ⟨some a, false, false⟩
    · subst hsucc
      have hsw := fun w' new ret => swing_swung hat hnn w' new ret
      have hdec := PAcc.decide_ok hacc q
      have hcl := decide_clean hacc
      cases hd : acc.decide with
      | mk ins res =>
        rw [hd] at hdec hcl
        refine ⟨res, ?_⟩
        cases ins with
        | word w' =>
          have htick : tick cfg m false (.pruneCas parent ⟨some a, false, false⟩ acc k) = (m.swing parent w' none (some a), afterPrune res k) := by
            simp [tick, tickPruneCas, hr, hderef, hd]; rfl
          rw [htick] at h
          simp only [Prod.mk.injEq] at h
          refine ⟨h.2.symm, Or.inl ⟨rfl, ?_⟩⟩
          rw [← h.1]
          exact prune_sick (m' := (m.swing parent w' none (some a)).bump) x.h hqn hat hm (fun i => hacc.cond i i.isLt) hcl hdec (hsw _ _ _)
        | copy cells =>
          have htick : tick cfg m false (.pruneCas parent ⟨some a, false, false⟩ acc k) = (m.swing parent ⟨some m.next, false, false⟩ (some (.inner cells q)) (some a),
              afterPrune res k) := by
            simp [tick, tickPruneCas, hr, hderef, hd]; rfl
          rw [htick] at h
          simp only [Prod.mk.injEq] at h
          refine ⟨h.2.symm, Or.inl ⟨rfl, ?_⟩⟩
          rw [← h.1]
          exact prune_sick (m' := (m.swing parent ⟨some m.next, false, false⟩ (some (.inner cells q)) (some a)).bump) x.h hqn hat hm
            (fun i => hacc.cond i i.isLt) rfl hdec (hsw _ _ _)
    · have htick : tick cfg m false (.pruneCas parent ⟨some a, false, false⟩ acc k) = (m, afterPrune .casFail k) := by
        simp [tick, tickPruneCas, hr, hderef, hsucc]
      rw [htick] at h
      simp only [Prod.mk.injEq] at h
      exact ⟨.casFail, h.2.symm, Or.inr ⟨hsucc, h.1.symm⟩⟩
  clear h
  obtain ⟨res, h1, h2⟩ := key
  cases k with
  | clean deleted ref rest =>
    simp only [afterPrune] at h1
    split at h1
    · cases h1
    · cases rest with
      | nil => simp [enterClean] at h1
      | cons y rest =>
        simp only [enterClean] at h1
        split at h1
        · cases h1
        · cases h1
          simp only [PC.cost, PC.near, PC.far, List.length_cons]; simp; omega
  | trav st hash mode =>
    simp only [afterPrune] at h1
    cases h1
    rcases h2 with ⟨rfl, h2, h3⟩ | ⟨h2, rfl⟩
    · simp only [PC.cost, PC.near, PC.far, late, hraw, if_true, lateOpt]; omega
    · simp only [PC.cost, PC.near, PC.far, late, hraw, Option.some.injEq, h2, if_false, lateOpt]; omega
  | rem key =>
    simp only [afterPrune] at h1
    cases h1
    rcases h2 with ⟨rfl, h2, h3⟩ | ⟨h2, rfl⟩
    · simp only [PC.cost, PC.near, PC.far, late, hraw, if_true, lateOpt, List.head?_nil]; omega
    · simp only [PC.cost, PC.near, PC.far, late, hraw, Option.some.injEq, h2, if_false, lateOpt, List.head?_nil]; omega

/-- Every step brings a call of an operation nearer to its end. -/
theorem tick_cost {c : Call K P} (x : Ctx cfg A m c.inv) (hi : PCInv cfg A m c) (hh : Helps m c.pc) {o : Op K P} (ho : c.req = .op o)
    (hon : ∀ y ∈ c.pc.pairs, OnPath cfg m (o.key cfg.key) y.2) {pc' : PC K P} {ran : Bool}
    (h : tick cfg m false c.pc = (m', .goto pc' ran)) (hlast : ∀ k h l, pc' = .get k h l → c.ticks + 1 ≤ 16) :
    pc'.cost m' (nibs (cfg.hash (o.key cfg.key))) (c.ticks + 1) < c.pc.cost m (nibs (cfg.hash (o.key cfg.key))) c.ticks := by
  cases hpc : c.pc with
  | get key hash cur =>
    rw [hpc] at h
    exact cost_get hlast h
  | isEmpty => simp only [PCInv, hpc] at hi; rw [ho] at hi; cases hi.1
  | iterNew => simp only [PCInv, hpc] at hi; rw [ho] at hi; cases hi.1
  | iterNext lv out => simp only [PCInv, hpc] at hi; rw [ho] at hi; cases hi.1
  | trav st hash mode shift cur parent => rw [hpc] at h; exact cost_trav h
  | travCas st hash mode shift cur parent node new kind =>
    rw [hpc] at h hh; exact cost_travCas x hi ho hpc hh h
  | rem key shift cur levels => rw [hpc] at h; exact cost_rem h
  | remCas key shift cur levels node new deleted =>
    rw [hpc] at h
    refine cost_remCas ?_ h
    simp only [PCInv, hpc] at hi
    obtain ⟨-, -, d, a, items, -, h1, -⟩ := hi
    have := h1.len; rw [h1.levels_len]; exact this
  | count deleted ref parent child rest i cn => rw [hpc] at h; exact cost_count h
  | prune parent child i acc k => rw [hpc] at h hh; exact cost_prune x hi hpc hh h
  | pruneCas parent child acc k =>
    rw [hpc] at h hon
    exact cost_pruneCas x hi hpc (hon (parent, child) (by simp [PC.pairs])) h

end Contrie
