import Verif.Proof.FineKeep
/-
The memories of the fine and of the coarse machine: what is in the one and not in the other.
-/
set_option linter.unusedSectionVars false
set_option linter.unusedSimpArgs false
namespace Contrie
variable {K P : Type} [DecidableEq K] {cfg : Config K P}

/-! ### Small facts -/

theorem offer_deref {m : Mem P} {x : Nat} (h : m.deref x = none) (b : Nat) : (m.offer x).deref b = m.deref b := by
  by_cases e : b = x
  · subst e; rw [h]; simp [Mem.deref, Mem.offer]
  · simp [Mem.deref, Mem.offer, upd_other _ _ e]

theorem offer_retired {m : Mem P} {x b : Nat} (h : m.deref x = none) (hb : m.deref b ≠ none) : (m.offer x).retired b = m.retired b := by
  have e : b ≠ x := by rintro rfl; exact hb h
  simp [Mem.offer, upd_other _ _ e]

theorem read_of_deref {m m' : Mem P} (hr : m'.root = m.root) (h : ∀ b, m'.deref b = m.deref b) (l : Loc) : m'.read l = m.read l := by
  cases l with
  | root => simp [Mem.read, hr]
  | slot a i => simp [Mem.read, h a]

theorem write_deref_other {m : Mem P} (w : Word) {l : Loc} {x : Nat} (h : ∀ i, l ≠ .slot x i) : (m.write w l).deref x = m.deref x := by
  cases l with
  | root => rfl
  | slot b i =>
    have e : x ≠ b := by rintro rfl; exact h i rfl
    simp only [Mem.write]
    split
    · simp [Mem.deref, upd_other _ _ e]
    · rfl

theorem builds_congr {m m' : Mem P} {pc : PC K P} (h : ∀ loc e a, pc.cas = some (loc, e) → e.ptr = some a →
    (∀ l, m.deref a = some (.data l) → m'.deref a = some (.data l)) ∧ (∀ c q, m.deref a = some (.inner c q) → ∃ c', m'.deref a = some (.inner c' q)) ∧ m.deref a ≠ none) :
    pc.builds m' = pc.builds m := by
  cases pc with
  | pruneCas parent child acc k =>
    simp only [PC.builds]
    split
    · next cells hd =>
      congr 2
      simp only [Mem.pathOf]
      cases hp : child.ptr with
      | none => rfl
      | some a =>
        obtain ⟨h1, h2, h3⟩ := h parent child a rfl hp
        simp only [Option.bind]
        cases hd : m.deref a with
        | none => exact absurd hd h3
        | some nd =>
          cases nd with
          | data l => rw [h1 l hd]
          | inner c q => obtain ⟨c', hc'⟩ := h2 c q hd; rw [hc']
    · rfl
  | _ => rfl

/-- Who retires what: only a compare-and-set that has succeeded, and what it has unlinked. -/
theorem tick_retires_fine (m : Mem P) (weak : Bool) (pc : PC K P) (b : Nat) : (tick cfg m weak pc).1.retired b = m.retired b ∨
    ((tick cfg m weak pc).1.retired b = some m.clock ∧ pc.unlinks = some b ∧ ∃ loc o w, pc.access .code = some (loc, o) ∧ m.read loc = some w ∧ pc.storesIf weak w = true) := by
  have ha : ∀ nd w l, ((m.alloc nd).write w l).retired = m.retired := fun nd w l => by rw [write_retired]; rfl
  have hac : ∀ nd w l, ((m.alloc nd).write w l).clock = m.clock := fun nd w l => by rw [write_clock]; rfl
  have keyL : ∀ (m1 : Mem P) (old : Nat), m1.retired = m.retired → m1.clock = m.clock → (m1.retire old).retired b = m.retired b ∨ ((m1.retire old).retired b = some m.clock ∧ old = b) := by
    intro m1 old h1 h2
    simp only [Mem.retire, h1, h2, upd]
    split
    · next e => exact .inr ⟨rfl, e.symm⟩
    · exact .inl rfl
  cases pc with
  | travCas st hash mode shift cur parent node new kind =>
    simp only [tick, tickTravCas]
    cases hr : m.read cur with
    | none => exact .inl rfl
    | some seen =>
      simp only
      by_cases hc : seen = node ∧ weak = false
      · obtain ⟨rfl, rfl⟩ := hc
        simp only [and_self, ↓reduceIte]
        cases kind with
        | split => exact .inl (by simp only [ha])
        | fresh => cases mode <;> exact .inl (by simp only [ha])
        | replace found =>
          simp only
          cases hp : seen.ptr with
          | none => exact .inl (by simp only [ha])
          | some old =>
            simp only
            split
            · exact .inl (by simp only [ha])
            · have hk := fun w => keyL _ old (ha new w cur) (hac _ _ _)
              have hu : ∀ {q : Prop}, q ∧ old = b → q ∧ PC.unlinks (.travCas st hash mode shift cur parent seen new (.replace found) : PC K P) = some b ∧ ∃ loc o w,
                  PC.access .code (.travCas st hash mode shift cur parent seen new (.replace found) : PC K P) = some (loc, o) ∧ m.read loc = some w ∧
                  PC.storesIf false w (.travCas st hash mode shift cur parent seen new (.replace found) : PC K P) = true :=
                fun h => ⟨h.1, by simp [PC.unlinks, hp, h.2], cur, _, seen, rfl, hr, by simp [PC.storesIf]⟩
              split <;> exact (hk _).imp id hu
      · simp only [hc, ↓reduceIte]; exact .inl trivial
  | remCas key shift cur lv node new del =>
    simp only [tick, tickRemCas]
    cases hr : m.read cur with
    | none => exact .inl rfl
    | some seen =>
      simp only
      by_cases hc : seen = node ∧ weak = false
      · obtain ⟨rfl, rfl⟩ := hc
        simp only [and_self, ↓reduceIte]
        cases hp : seen.ptr with
        | none => left; simp only; cases new <;> simp only [ha, write_retired]
        | some old =>
          simp only
          split
          · left; cases new <;> simp only [ha, write_retired]
          · have hu : ∀ {q : Prop}, q ∧ old = b → q ∧ PC.unlinks (.remCas key shift cur lv seen new del : PC K P) = some b ∧ ∃ loc o w,
                PC.access .code (.remCas key shift cur lv seen new del : PC K P) = some (loc, o) ∧ m.read loc = some w ∧
                PC.storesIf false w (.remCas key shift cur lv seen new del : PC K P) = true :=
              fun h => ⟨h.1, by simp [PC.unlinks, hp, h.2], cur, _, seen, rfl, hr, by simp [PC.storesIf]⟩
            cases new with
            | nil => exact (keyL _ old (write_retired _ _ _) (write_clock _ _ _)).imp id hu
            | cons x l => exact (keyL _ old (ha _ _ _) (hac _ _ _)).imp id hu
      · simp only [hc, ↓reduceIte]; exact .inl trivial
  | prune parent child i acc k =>
    left
    simp only [tick, tickPrune]
    repeat' (first | rfl | simp only [write_retired] | split)
  | pruneCas parent child acc k =>
    simp only [tick, tickPruneCas]
    cases hp : child.ptr with
    | none => exact .inl rfl
    | some a =>
      simp only
      split
      · next w c q hr hd =>
        split
        · next e =>
          subst e
          have hu : ∀ {q : Prop}, q ∧ a = b → q ∧ PC.unlinks (.pruneCas parent w acc k : PC K P) = some b ∧ ∃ loc o w',
                PC.access .code (.pruneCas parent w acc k : PC K P) = some (loc, o) ∧ m.read loc = some w' ∧
                PC.storesIf weak w' (.pruneCas parent w acc k : PC K P) = true :=
              fun h => ⟨h.1, by simp [PC.unlinks, hp, h.2], parent, _, w, rfl, hr, by simp [PC.storesIf]⟩
          simp only
          cases acc.decide.1 with
          | word w' => exact (keyL _ a (write_retired _ _ _) (write_clock _ _ _)).imp id hu
          | copy cells => exact (keyL _ a (ha _ _ _) (hac _ _ _)).imp id hu
        · exact .inl rfl
      · exact .inl rfl
  | _ => exact .inl rfl

/-! ### The relation of the memories -/

/-- `mf` has, besides what is in `mr`, the nodes the sessions have built and not published (`own t`), and a node unlinked by a session that has not handed it over yet (`unl t`) is not retired in `mf`, whereas it
is in `mr`. -/
structure FMem (mr mf : Mem P) (own unl : Nat → Option Nat) : Prop where
  sub : Sub mr mf
  ret : ∀ a τ, mr.deref a ≠ none → mf.retired a = some τ → ∃ τ', τ' ≤ τ ∧ mr.retired a = some τ'
  late : ∀ a τ, mr.deref a ≠ none → mr.retired a = some τ → mf.retired a ≠ none ∨ ∃ t, unl t = some a
  only : ∀ a, mf.deref a ≠ none → mr.deref a ≠ none ∨ ∃ t, own t = some a
  ownd : ∀ t a, own t = some a → mr.deref a = none ∧ mf.retired a = none ∧ mf.deref a ≠ none
  inj : ∀ t t' a, own t = some a → own t' = some a → t = t'
  unret : ∀ t a, unl t = some a → mf.retired a = none
  uinj : ∀ t t' a, unl t = some a → unl t' = some a → t = t'

variable {mr mf mr' mf' : Mem P} {own unl : Nat → Option Nat}

theorem FMem.same (h : FMem mr mf own unl) (hr : mr'.root = mr.root) (hd : ∀ a, mr'.deref a = mr.deref a) (ht : ∀ a, mr.deref a ≠ none → mr'.retired a = mr.retired a)
    (fr : mf'.root = mf.root) (fd : ∀ a, mf'.deref a = mf.deref a) (ft : mf'.retired = mf.retired) : FMem mr' mf' own unl where
  sub := ⟨by rw [fr, hr]; exact h.sub.root, fun a nd ha => by rw [fd]; rw [hd] at ha; exact h.sub.live a nd ha⟩
  ret := fun a τ ha hτ => by rw [hd] at ha; rw [ft] at hτ; rw [ht a ha]; exact h.ret a τ ha hτ
  late := fun a τ ha hτ => by rw [hd] at ha; rw [ht a ha] at hτ; rw [ft]; exact h.late a τ ha hτ
  only := fun a ha => by rw [fd] at ha; rw [hd]; exact h.only a ha
  ownd := fun t a ha => by rw [hd, ft, fd]; exact h.ownd t a ha
  inj := h.inj
  unret := fun t a ha => by rw [ft]; exact h.unret t a ha
  uinj := h.uinj

/-- The collector destroys a node. -/
theorem FMem.free (h : FMem mr mf own unl) {x τ : Nat} (hx : mf.retired x = some τ) : FMem { mr with freed := upd mr.freed x true } { mf with freed := upd mf.freed x true } own unl := by
  have e1 : ∀ (m : Mem P) a, Mem.deref { m with freed := upd m.freed x true } a = if a = x then none else m.deref a := by
    intro m a
    by_cases e : a = x
    · subst e; simp [Mem.deref]
    · simp [Mem.deref, upd_other _ _ e, e]
  refine ⟨⟨h.sub.root, ?_⟩, ?_, ?_, ?_, ?_, h.inj, h.unret, h.uinj⟩
  · intro a nd ha
    rw [e1] at ha ⊢
    by_cases e : a = x
    · simp [e] at ha
    · simp only [e, ↓reduceIte] at ha ⊢; exact h.sub.live a nd ha
  · intro a τ' ha hτ
    rw [e1] at ha
    by_cases e : a = x
    · simp [e] at ha
    · simp only [e, ↓reduceIte] at ha; exact h.ret a τ' ha hτ
  · intro a τ' ha hτ
    rw [e1] at ha
    by_cases e : a = x
    · simp [e] at ha
    · simp only [e, ↓reduceIte] at ha; exact h.late a τ' ha hτ
  · intro a ha
    rw [e1] at ha ⊢
    by_cases e : a = x
    · simp [e] at ha
    · simp only [e, ↓reduceIte] at ha ⊢; exact h.only a ha
  · intro t a ha
    obtain ⟨g1, g2, g3⟩ := h.ownd t a ha
    have e : a ≠ x := by rintro rfl; rw [hx] at g2; cases g2
    rw [e1, e1]
    simp only [e, ↓reduceIte]
    exact ⟨g1, g2, g3⟩

theorem giveBack_deref {m : Mem P} {o : Option Nat} (a : Nat) : (m.giveBack o).deref a = if o = some a then none else m.deref a := by
  cases o with
  | none => simp [Mem.giveBack]
  | some b =>
    by_cases e : a = b
    · subst e; simp [Mem.giveBack, Mem.deref]
    · simp [Mem.giveBack, Mem.deref, upd_other _ _ e, Ne.symm e]

theorem giveBack_root (m : Mem P) (o : Option Nat) : (m.giveBack o).root = m.root := by cases o <;> rfl
theorem giveBack_retired (m : Mem P) (o : Option Nat) : (m.giveBack o).retired = m.retired := by cases o <;> rfl
theorem giveBack_clock (m : Mem P) (o : Option Nat) : (m.giveBack o).clock = m.clock := by cases o <;> rfl
theorem handOver_root (m : Mem P) (o : Option Nat) : (m.handOver o).root = m.root := by cases o <;> rfl
theorem handOver_deref (m : Mem P) (o : Option Nat) (a : Nat) : (m.handOver o).deref a = m.deref a := by cases o <;> rfl
theorem handOver_clock (m : Mem P) (o : Option Nat) : (m.handOver o).clock = m.clock := by cases o <;> rfl
theorem handOver_retired (m : Mem P) (o : Option Nat) (a : Nat) : (m.handOver o).retired a = if o = some a then some m.clock else m.retired a := by
  cases o with
  | none => simp [Mem.handOver]
  | some b =>
    by_cases e : a = b
    · subst e; simp [Mem.handOver, Mem.retire]
    · simp [Mem.handOver, Mem.retire, upd_other _ _ e, Ne.symm e]
theorem create_root (m : Mem P) (x : Nat) (o : Option (Node P)) : (m.create x o).root = m.root := by cases o <;> rfl
theorem create_clock (m : Mem P) (x : Nat) (o : Option (Node P)) : (m.create x o).clock = m.clock := by cases o <;> rfl
theorem create_deref {m : Mem P} {x : Nat} {nd : Node P} (a : Nat) : (m.create x (some nd)).deref a = if a = x then some nd else m.deref a := by
  by_cases e : a = x
  · subst e; simp [Mem.create, Mem.deref]
  · simp [Mem.create, Mem.deref, upd_other _ _ e, e]
theorem create_retired {m : Mem P} {x : Nat} {nd : Node P} (a : Nat) : (m.create x (some nd)).retired a = if a = x then none else m.retired a := by
  by_cases e : a = x
  · subst e; simp [Mem.create]
  · simp [Mem.create, upd_other _ _ e, e]

theorem upd_some {f : Nat → Option Nat} {t t' a : Nat} {o : Option Nat} (h : upd f t o t' = some a) : (t' = t ∧ o = some a) ∨ (t' ≠ t ∧ f t' = some a) := by
  by_cases e : t' = t
  · subst e; rw [upd_same] at h; exact .inl ⟨rfl, h⟩
  · rw [upd_other _ _ e] at h; exact .inr ⟨e, h⟩

/-- A node that was never published is dropped. -/
theorem FMem.give (h : FMem mr mf own unl) (t : Nat) : FMem mr (mf.giveBack (own t)) (upd own t none) unl := by
  have hdis : ∀ a, mr.deref a ≠ none → own t ≠ some a := fun a ha e => ha (h.ownd t a e).1
  refine ⟨⟨by rw [giveBack_root]; exact h.sub.root, ?_⟩, ?_, ?_, ?_, ?_, ?_, ?_, h.uinj⟩
  · intro a nd ha
    rw [giveBack_deref, if_neg (hdis a (by rw [ha]; simp))]
    exact h.sub.live a nd ha
  · intro a τ ha; rw [giveBack_retired]; exact h.ret a τ ha
  · intro a τ ha; rw [giveBack_retired]; exact h.late a τ ha
  · intro a ha
    rw [giveBack_deref] at ha
    split at ha
    · exact absurd rfl ha
    · next hne =>
      rcases h.only a ha with g | ⟨t', g⟩
      · exact .inl g
      · have e : t' ≠ t := by rintro rfl; exact hne g
        exact .inr ⟨t', by rw [upd_other _ _ e]; exact g⟩
  · intro t' a ha
    rcases upd_some ha with ⟨-, g⟩ | ⟨e, g⟩
    · cases g
    · obtain ⟨g1, g2, g3⟩ := h.ownd t' a g
      refine ⟨g1, by rw [giveBack_retired]; exact g2, ?_⟩
      rw [giveBack_deref, if_neg (fun e' => e (h.inj t' t a g e'))]
      exact g3
  · intro t1 t2 a h1 h2
    rcases upd_some h1 with ⟨-, g⟩ | ⟨-, g⟩
    · cases g
    · rcases upd_some h2 with ⟨-, g'⟩ | ⟨-, g'⟩
      · cases g'
      · exact h.inj t1 t2 a g g'
  · intro t' a ha; rw [giveBack_retired]; exact h.unret t' a ha

/-- An unlinked node is handed to the collector. -/
theorem FMem.hand (h : FMem mr mf own unl) (t : Nat) (hu : ∀ a, unl t = some a → mr.deref a ≠ none ∧ ∃ τ, τ ≤ mf.clock ∧ mr.retired a = some τ) :
    FMem mr (mf.handOver (unl t)) own (upd unl t none) := by
  refine ⟨⟨by rw [handOver_root]; exact h.sub.root, ?_⟩, ?_, ?_, ?_, ?_, h.inj, ?_, ?_⟩
  · intro a nd ha; rw [handOver_deref]; exact h.sub.live a nd ha
  · intro a τ ha hτ
    rw [handOver_retired] at hτ
    split at hτ
    · next e => cases hτ; obtain ⟨-, τ', g1, g2⟩ := hu a e; exact ⟨τ', g1, g2⟩
    · exact h.ret a τ ha hτ
  · intro a τ ha hτ
    rw [handOver_retired]
    split
    · left; simp
    · next e =>
      rcases h.late a τ ha hτ with g | ⟨t', g⟩
      · exact .inl g
      · have e' : t' ≠ t := by rintro rfl; exact e g
        exact .inr ⟨t', by rw [upd_other _ _ e']; exact g⟩
  · intro a ha; rw [handOver_deref] at ha; exact h.only a ha
  · intro t' a ha
    obtain ⟨g1, g2, g3⟩ := h.ownd t' a ha
    refine ⟨g1, ?_, by rw [handOver_deref]; exact g3⟩
    rw [handOver_retired, if_neg (fun e => (hu a e).1 g1)]
    exact g2
  · intro t' a ha
    rcases upd_some ha with ⟨-, g⟩ | ⟨e, g⟩
    · cases g
    · rw [handOver_retired, if_neg (fun e' => e (h.uinj t' t a g e'))]
      exact h.unret t' a g
  · intro t1 t2 a h1 h2
    rcases upd_some h1 with ⟨-, g⟩ | ⟨-, g⟩
    · cases g
    · rcases upd_some h2 with ⟨-, g'⟩ | ⟨-, g'⟩
      · cases g'
      · exact h.uinj t1 t2 a g g'

/-- A node is built. -/
theorem FMem.create (h : FMem mr mf own unl) {t x : Nat} (ht : own t = none) (hx : mf.deref x = none) (hu : ∀ t, unl t ≠ some x) (o : Option (Node P)) :
    FMem mr (mf.create x o) (upd own t (o.map fun _ => x)) unl := by
  cases o with
  | none =>
    have : upd own t (Option.map (fun _ => x) (none : Option (Node P))) = own := by
      funext t'
      by_cases e : t' = t
      · subst e; rw [upd_same, ht]; rfl
      · rw [upd_other _ _ e]
    rw [this]
    exact h
  | some nd =>
    simp only [Option.map]
    have hxr : mr.deref x = none := by
      cases hd : mr.deref x with
      | none => rfl
      | some n => rw [h.sub.live x n hd] at hx; cases hx
    have hox : ∀ t, own t ≠ some x := fun t e => (h.ownd t x e).2.2 hx
    refine ⟨⟨by rw [create_root]; exact h.sub.root, ?_⟩, ?_, ?_, ?_, ?_, ?_, ?_, h.uinj⟩
    · intro a n ha
      have e : a ≠ x := by rintro rfl; rw [hxr] at ha; cases ha
      rw [create_deref, if_neg e]; exact h.sub.live a n ha
    · intro a τ ha hτ
      have e : a ≠ x := by rintro rfl; exact ha hxr
      rw [create_retired, if_neg e] at hτ
      exact h.ret a τ ha hτ
    · intro a τ ha hτ
      have e : a ≠ x := by rintro rfl; exact ha hxr
      rw [create_retired, if_neg e]
      exact h.late a τ ha hτ
    · intro a ha
      rw [create_deref] at ha
      split at ha
      · next e => subst e; exact .inr ⟨t, upd_same _ _ _⟩
      · rcases h.only a ha with g | ⟨t', g⟩
        · exact .inl g
        · have e : t' ≠ t := by rintro rfl; rw [ht] at g; cases g
          exact .inr ⟨t', by rw [upd_other _ _ e]; exact g⟩
    · intro t' a ha
      rw [create_retired, create_deref]
      rcases upd_some ha with ⟨-, g⟩ | ⟨-, g⟩
      · cases g
        simp [hxr]
      · have e : a ≠ x := by rintro rfl; exact hox t' g
        simp only [e, ↓reduceIte]
        exact h.ownd t' a g
    · intro t1 t2 a h1 h2
      rcases upd_some h1 with ⟨e1, g⟩ | ⟨e1, g⟩
      · cases g
        rcases upd_some h2 with ⟨e2, -⟩ | ⟨-, g'⟩
        · rw [e1, e2]
        · exact absurd g' (hox t2)
      · rcases upd_some h2 with ⟨-, g'⟩ | ⟨-, g'⟩
        · cases g'; exact absurd g (hox t1)
        · exact h.inj t1 t2 a g g'
    · intro t' a ha
      have e : a ≠ x := by rintro rfl; exact hu t' ha
      rw [create_retired, if_neg e]
      exact h.unret t' a ha

/-- An access. -/
theorem FMem.access (h : FMem mr mf own unl) {t x : Nat} {weak b : Bool} {pc : PC K P} {nx : Next K P} {w : Word} (hx : mr.deref x = none) (hxo : ∀ a, own t = some a → x = a)
    (S : Split cfg (mr.offer x) mf weak (own t) pc mr' nx mf' w b) (ht : unl t = none)
    (hu : b = true → ∀ a, pc.unlinks = some a → mr.deref a ≠ none ∧ mr.retired a = none ∧ ∀ t', unl t' ≠ some a)
    (hk : ∀ a τ, mr.deref a ≠ none → mr.retired a = some τ → mr'.retired a = some τ)
    (hr : ∀ a, mr'.retired a = (mr.offer x).retired a ∨ (b = true ∧ pc.unlinks = some a)) :
    FMem mr' mf' (upd own t (if b then none else own t)) (upd unl t (if b then pc.unlinks else none)) := by
  have hrd : ∀ a, mr'.deref a ≠ none ↔ mr.deref a ≠ none ∨ (b = true ∧ own t = some a) := by
    intro a; rw [S.rdom a, offer_deref hx]
  have ho : ∀ t' a, upd own t (if b then none else own t) t' = some a → own t' = some a ∧ (t' = t → b = false) := by
    intro t' a ha
    rcases upd_some ha with ⟨rfl, g⟩ | ⟨e, g⟩
    · cases b with
      | true => simp at g
      | false => exact ⟨by simpa using g, fun _ => rfl⟩
    · exact ⟨g, fun e' => absurd e' e⟩
  refine ⟨S.sub, ?_, ?_, ?_, ?_, ?_, ?_, ?_⟩
  · intro a τ ha hτ
    rw [S.ret] at hτ
    rcases (hrd a).mp ha with g | ⟨-, g⟩
    · obtain ⟨τ', g1, g2⟩ := h.ret a τ g hτ
      exact ⟨τ', g1, hk a τ' g g2⟩
    · rw [(h.ownd t a g).2.1] at hτ; cases hτ
  · intro a τ ha hτ
    rw [S.ret]
    rcases hr a with g | ⟨g1, g2⟩
    · rw [hτ] at g
      have e : a ≠ x := by rintro rfl; simp [Mem.offer] at g
      have g' : mr.retired a = some τ := by simp only [Mem.offer, upd_other _ _ e] at g; exact g.symm
      rcases (hrd a).mp ha with k | ⟨-, k⟩
      · rcases h.late a τ k g' with l | ⟨t', l⟩
        · exact .inl l
        · have e' : t' ≠ t := by rintro rfl; rw [ht] at l; cases l
          exact .inr ⟨t', by rw [upd_other _ _ e']; exact l⟩
      · exact absurd (hxo a k).symm e
    · exact .inr ⟨t, by rw [upd_same, g1]; exact g2⟩
  · intro a ha
    have ha' : mf.deref a ≠ none := fun e => ha ((S.dom a).mpr e)
    rcases h.only a ha' with g | ⟨t', g⟩
    · exact .inl ((hrd a).mpr (.inl g))
    · by_cases e : t' = t
      · subst e
        cases hb : b with
        | true => exact .inl ((hrd a).mpr (.inr ⟨hb, g⟩))
        | false => exact .inr ⟨t', by rw [upd_same]; simpa using g⟩
      · exact .inr ⟨t', by rw [upd_other _ _ e]; exact g⟩
  · intro t' a ha
    obtain ⟨g, gb⟩ := ho t' a ha
    obtain ⟨g1, g2, g3⟩ := h.ownd t' a g
    refine ⟨?_, by rw [S.ret]; exact g2, fun e => g3 ((S.dom a).mp e)⟩
    cases hd : mr'.deref a with
    | none => rfl
    | some nd =>
      rcases (hrd a).mp (by rw [hd]; simp) with k | ⟨k1, k2⟩
      · exact absurd g1 k
      · have := gb (h.inj t' t a g k2)
        rw [k1] at this; cases this
  · intro t1 t2 a h1 h2
    exact h.inj t1 t2 a (ho _ _ h1).1 (ho _ _ h2).1
  · intro t' a ha
    rw [S.ret]
    rcases upd_some ha with ⟨rfl, g⟩ | ⟨e, g⟩
    · cases hb : b with
      | false => simp [hb] at g
      | true =>
        simp only [hb, ↓reduceIte] at g
        obtain ⟨g1, g2, -⟩ := hu hb a g
        cases hτ : mf.retired a with
        | none => rfl
        | some τ => obtain ⟨τ', -, k⟩ := h.ret a τ g1 hτ; rw [g2] at k; cases k
    · exact h.unret t' a g
  · intro t1 t2 a h1 h2
    have hone : ∀ t' , t' ≠ t → unl t' = some a → (if b then pc.unlinks else none) = some a → False := by
      intro t' _ g1 g2
      cases hb : b with
      | false => simp [hb] at g2
      | true => simp only [hb, ↓reduceIte] at g2; exact (hu hb a g2).2.2 t' g1
    rcases upd_some h1 with ⟨e1, g⟩ | ⟨e1, g⟩
    · rcases upd_some h2 with ⟨e2, g'⟩ | ⟨e2, g'⟩
      · rw [e1, e2]
      · exact (hone t2 e2 g' g).elim
    · rcases upd_some h2 with ⟨e2, g'⟩ | ⟨e2, g'⟩
      · exact (hone t1 e1 g g').elim
      · exact h.uinj t1 t2 a g g'

end Contrie
