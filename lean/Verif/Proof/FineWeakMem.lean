import Verif.Model.FineWeak
import Verif.Proof.FineMem
import Verif.Proof.ReuseCohExec
/-
The fine machine under weak memory: memories, and the two halves of a step.
-/
set_option linter.unusedSectionVars false
set_option linter.unusedSimpArgs false
namespace Contrie
variable {K P : Type} [DecidableEq K] {cfg : Config K P}

/-! ### Memories that are the same, but for what has been retired -/

/-- The same, but for what has been retired. -/
structure MEq (ma mf : Mem P) : Prop where
  root : mf.root = ma.root
  deref : ∀ a, mf.deref a = ma.deref a
  next : mf.next = ma.next
  clock : mf.clock = ma.clock

theorem MEq.refl (m : Mem P) : MEq m m := ⟨rfl, fun _ => rfl, rfl, rfl⟩

theorem MEq.read {ma mf : Mem P} (h : MEq ma mf) (l : Loc) : mf.read l = ma.read l := read_of_deref h.root h.deref l

theorem MEq.bump {ma mf : Mem P} (h : MEq ma mf) : MEq ma.bump mf.bump := ⟨h.root, h.deref, h.next, by simp only [Mem.bump, h.clock]⟩

theorem write_slot_deref (m : Mem P) (w : Word) (a : Nat) (i : Fin 16) (b : Nat) :
    (m.write w (.slot a i)).deref b = if b = a then (match m.deref a with | some (.inner c p) => some (.inner (upd c i w) p) | x => x) else m.deref b := by
  simp only [Mem.write]
  cases hm : m.mem a with
  | none =>
    simp only
    split
    · next e => subst e; simp [Mem.deref, hm]
    · rfl
  | some nd =>
    cases nd with
    | data l =>
      simp only
      split
      · next e => subst e; simp only [Mem.deref, hm]; split <;> rfl
      · rfl
    | inner c p =>
      simp only [Mem.deref]
      by_cases e : b = a
      · subst e
        simp only [upd_same, hm, if_true]
        cases m.freed b <;> simp
      · simp only [upd_other _ _ e, if_neg e]

theorem MEq.write {ma mf : Mem P} (h : MEq ma mf) (w : Word) (l : Loc) : MEq (ma.write w l) (mf.write w l) := by
  cases l with
  | root => exact ⟨rfl, h.deref, h.next, h.clock⟩
  | slot a i =>
    refine ⟨?_, fun b => ?_, ?_, ?_⟩
    · have : ∀ m : Mem P, (m.write w (.slot a i)).root = m.root := by intro m; simp only [Mem.write]; split <;> rfl
      rw [this, this, h.root]
    · rw [write_slot_deref, write_slot_deref, h.deref, h.deref]
    · rw [(write_frame mf _ _).1, (write_frame ma _ _).1, h.next]
    · rw [(write_frame mf _ _).2.1, (write_frame ma _ _).2.1, h.clock]

theorem MEq.see {ma mf : Mem P} (h : MEq ma mf) (x : Option (Loc × Word)) : MEq (ma.see x) (mf.see x) := by
  cases x with
  | none => exact h
  | some y => exact h.write y.2 y.1

theorem MEq.builds {ma mf : Mem P} (h : MEq ma mf) (pc : PC K P) : pc.builds mf = pc.builds ma := by
  cases pc with
  | pruneCas parent child acc k =>
    simp only [PC.builds]
    split
    · simp only [Mem.pathOf]
      cases child.ptr with
      | none => rfl
      | some a => simp only [Option.bind, h.deref a]
    · rfl
  | _ => rfl

theorem MEq.writes {ma mf : Mem P} (h : MEq ma mf) (weak : Bool) (pc : PC K P) : pc.writes mf weak = pc.writes ma weak := by
  simp only [PC.writes]
  split
  · rfl
  · rw [h.read]

theorem MEq.look {ma mf : Mem P} (h : MEq ma mf) (weak : Bool) (τ now : Nat) (pc : PC K P) (view : Loc → Nat) : pc.look mf weak τ now view = pc.look ma weak τ now view := by
  simp only [PC.look]
  split
  · rfl
  · rw [h.writes]

theorem storesIf_stores (weak : Bool) (w : Word) (pc : PC K P) : pc.storesIf weak w = (pc.stores .code weak w).isSome := by
  cases pc with
  | travCas st hash mode shift cur parent node new kind =>
    simp only [PC.storesIf, PC.stores]
    by_cases h : w = node <;> cases weak <;> simp [h]
  | remCas key shift cur lv node new del =>
    simp only [PC.storesIf, PC.stores]
    by_cases h : w = node <;> cases weak <;> simp [h]
  | prune => rfl
  | pruneCas parent child acc k =>
    simp only [PC.storesIf, PC.stores]
    by_cases h : w = child <;> simp [h]
  | _ => rfl

/-- Writing what is there changes nothing. -/
theorem see_now (m : Mem P) (o : Option Loc) : MEq m (m.see (o.bind (fun l => (m.read l).map (fun w => (l, w))))) := by
  cases o with
  | none => exact .refl m
  | some l =>
    simp only [Option.bind]
    cases hr : m.read l with
    | none => exact .refl m
    | some w =>
      simp only [Option.map_some, Mem.see]
      cases l with
      | root => simp only [Mem.read, Option.some.injEq] at hr; subst hr; exact ⟨rfl, fun _ => rfl, rfl, rfl⟩
      | slot a i =>
        refine ⟨by simp only [Mem.write]; split <;> rfl, fun b => ?_, (write_frame m _ _).1, (write_frame m _ _).2.1⟩
        rw [write_slot_deref]
        split
        · next e =>
          subst e
          simp only [Mem.read] at hr
          split at hr
          · next c p hd =>
            simp only [Option.some.injEq] at hr
            rw [hd]
            simp only [Option.some.injEq, Node.inner.injEq, and_true]
            funext j
            by_cases e : j = i
            · subst e; rw [upd_same, hr]
            · rw [upd_other _ _ e]
          · cases hr
        · rfl

theorem seen_now (s : CState K P) (pc : PC K P) : MEq s.m (s.seen pc s.m.clock) := by
  have := see_now s.m ((pc.access .code).map Prod.fst)
  simp only [CState.seen, CState.memAt, if_true]
  cases ha : pc.access .code with
  | none => exact .refl _
  | some x => simpa [ha] using this

/-! ### What one step does to the nodes -/

theorem alloc_facts (m : Mem P) (n : Node P) : (m.alloc n).next = m.next + 1 ∧ (m.alloc n).mem m.next ≠ none := by
  simp [Mem.alloc]

theorem write_mem_some {m : Mem P} {a : Nat} (w : Word) (l : Loc) (h : m.mem a ≠ none) : (m.write w l).mem a ≠ none := by
  obtain ⟨nd, hnd⟩ := Option.ne_none_iff_exists'.mp h
  cases nd with
  | data x => rw [((write_frame m w l).2.2.2.2.1 a x).mpr hnd]; simp
  | inner c p => obtain ⟨c', hc⟩ := (write_frame m w l).2.2.2.2.2.1 a c p hnd; rw [hc]; simp

/-- An address is used up exactly if a node is created there. -/
theorem tick_next_mem (cfg : Config K P) {m : Mem P} (h : m.mem m.next = none) (weak : Bool) (pc : PC K P) :
    ((tick cfg m weak pc).1.next = m.next ∧ (tick cfg m weak pc).1.mem m.next = none) ∨
    ((tick cfg m weak pc).1.next = m.next + 1 ∧ (tick cfg m weak pc).1.mem m.next ≠ none) := by
  have h0 : (m.next = m.next ∧ m.mem m.next = none) ∨ (m.next = m.next + 1 ∧ m.mem m.next ≠ none) := .inl ⟨rfl, h⟩
  have hw : ∀ w l, ((m.write w l).next = m.next ∧ (m.write w l).mem m.next = none) ∨ ((m.write w l).next = m.next + 1 ∧ (m.write w l).mem m.next ≠ none) :=
    fun w l => .inl ⟨(write_frame m w l).1, write_mem_none w l h⟩
  have hp : ∀ n w l, (((m.alloc n).write w l).next = m.next ∧ ((m.alloc n).write w l).mem m.next = none) ∨
      (((m.alloc n).write w l).next = m.next + 1 ∧ ((m.alloc n).write w l).mem m.next ≠ none) :=
    fun n w l => .inr ⟨by rw [(write_frame _ w l).1]; rfl, write_mem_some w l (alloc_facts m n).2⟩
  have hr : ∀ n w l o, ((((m.alloc n).write w l).retire o).next = m.next ∧ (((m.alloc n).write w l).retire o).mem m.next = none) ∨
      ((((m.alloc n).write w l).retire o).next = m.next + 1 ∧ (((m.alloc n).write w l).retire o).mem m.next ≠ none) := fun n w l o => hp n w l
  have hr' : ∀ w l o, (((m.write w l).retire o).next = m.next ∧ ((m.write w l).retire o).mem m.next = none) ∨
      (((m.write w l).retire o).next = m.next + 1 ∧ ((m.write w l).retire o).mem m.next ≠ none) := fun w l o => hw w l
  cases pc with
  | travCas st hash mode shift cur parent node new kind =>
    simp only [tick, tickTravCas]
    repeat' (first | exact h0 | exact hp _ _ _ | exact hr _ _ _ _ | split)
  | remCas key shift cur lv node new del =>
    simp only [tick, tickRemCas]
    repeat' (first | exact h0 | exact hp _ _ _ | exact hr _ _ _ _ | exact hw _ _ | exact hr' _ _ _ | split)
  | prune parent child i acc k =>
    simp only [tick, tickPrune]
    repeat' (first | exact h0 | exact hw _ _ | split)
  | pruneCas parent child acc k =>
    simp only [tick, tickPruneCas]
    repeat' (first | exact h0 | exact hp _ _ _ | exact hr _ _ _ _ | exact hw _ _ | exact hr' _ _ _ | split)
  | _ => exact h0

/-- Nodes stay what they are: data nodes keep their elements, inner nodes their place. -/
def NodesStay (m m' : Mem P) : Prop :=
  (∀ a l, m.mem a = some (.data l) → m'.mem a = some (.data l)) ∧ (∀ a c p, m.mem a = some (.inner c p) → ∃ c', m'.mem a = some (.inner c' p))

theorem NodesStay.refl (m : Mem P) : NodesStay m m := ⟨fun _ _ h => h, fun _ c _ h => ⟨c, h⟩⟩

theorem NodesStay.trans {m m' m'' : Mem P} (h : NodesStay m m') (h' : NodesStay m' m'') : NodesStay m m'' :=
  ⟨fun a l e => h'.1 a l (h.1 a l e), fun a c p e => by obtain ⟨c', e'⟩ := h.2 a c p e; exact h'.2 a c' p e'⟩

theorem NodesStay.write (m : Mem P) (w : Word) (l : Loc) : NodesStay m (m.write w l) :=
  ⟨fun a x h => ((write_frame m w l).2.2.2.2.1 a x).mpr h, fun a c p h => (write_frame m w l).2.2.2.2.2.1 a c p h⟩

theorem NodesStay.alloc {m : Mem P} (h : m.mem m.next = none) (n : Node P) : NodesStay m (m.alloc n) := by
  have : ∀ a, m.mem a ≠ none → (m.alloc n).mem a = m.mem a := by
    intro a ha
    have e : a ≠ m.next := by rintro rfl; exact ha h
    simp [Mem.alloc, upd_other _ _ e]
  exact ⟨fun a l e => by rw [this a (by rw [e]; simp)]; exact e, fun a c p e => ⟨c, by rw [this a (by rw [e]; simp)]; exact e⟩⟩

theorem tick_stay (cfg : Config K P) {m : Mem P} (h : m.mem m.next = none) (weak : Bool) (pc : PC K P) : NodesStay m (tick cfg m weak pc).1 := by
  have h0 := NodesStay.refl m
  have hw : ∀ w l, NodesStay m (m.write w l) := fun w l => .write m w l
  have hp : ∀ n w l, NodesStay m ((m.alloc n).write w l) := fun n w l => (NodesStay.alloc h n).trans (.write _ w l)
  have hr : ∀ n w l o, NodesStay m (((m.alloc n).write w l).retire o) := fun n w l o => hp n w l
  have hr' : ∀ w l o, NodesStay m ((m.write w l).retire o) := fun w l o => hw w l
  cases pc with
  | travCas st hash mode shift cur parent node new kind =>
    simp only [tick, tickTravCas]
    repeat' (first | exact h0 | exact hp _ _ _ | exact hr _ _ _ _ | split)
  | remCas key shift cur lv node new del =>
    simp only [tick, tickRemCas]
    repeat' (first | exact h0 | exact hp _ _ _ | exact hr _ _ _ _ | exact hw _ _ | exact hr' _ _ _ | split)
  | prune parent child i acc k =>
    simp only [tick, tickPrune]
    repeat' (first | exact h0 | exact hw _ _ | split)
  | pruneCas parent child acc k =>
    simp only [tick, tickPruneCas]
    repeat' (first | exact h0 | exact hp _ _ _ | exact hr _ _ _ _ | exact hw _ _ | exact hr' _ _ _ | split)
  | _ => exact h0

theorem seen_stay (s : CState K P) (pc : PC K P) (τ : Nat) : NodesStay s.m (s.seen pc τ) := by
  simp only [CState.seen]
  generalize (pc.access .code).bind (fun x => ((s.memAt τ).read x.1).map (fun w => (x.1, w))) = x
  cases x with
  | none => exact .refl _
  | some y => exact .write _ _ _

theorem seen_next (s : CState K P) (pc : PC K P) (τ : Nat) : (s.seen pc τ).next = s.m.next := see_next _ _
theorem seen_freed (s : CState K P) (pc : PC K P) (τ : Nat) : (s.seen pc τ).freed = s.m.freed := see_freed _ _

/-! ### The access and the coarse step -/

/-- The access, from memories that are the same, and the coarse step: the memories are the same again. -/
theorem access_step {sa : CState K P} {sf : CState K P} (hm : MEq sa.m sf.m) (hb : Blank sa.m) {pc : PC K P} {τ : Nat} {weak : Bool} (hseen : MEq (sa.seen pc τ) (sf.seen pc τ))
    (hnew : pc.newOK) (hok : (tick cfg (sa.seen pc τ) weak pc).2.ok) (hst : τ ≠ sa.m.clock → pc.writes (sa.seen pc τ) weak = false) :
    ∃ m' w ok, pc.fineAccess ((sf.seen pc τ).create sf.m.next (pc.builds (sf.seen pc τ))) weak ((pc.builds (sf.seen pc τ)).map (fun _ => sf.m.next)) = some (m', w, ok) ∧
      (ok = true → τ = sa.m.clock) ∧
      MEq (if τ = sa.m.clock then (tick cfg (sa.seen pc τ) weak pc).1 else sa.m) (sf.m.stored m' ok ((pc.builds (sf.seen pc τ)).map (fun _ => sf.m.next))) ∧
      (∃ mf mf', Split cfg (sa.seen pc τ) mf weak ((pc.builds (sf.seen pc τ)).map (fun _ => sf.m.next)) pc (tick cfg (sa.seen pc τ) weak pc).1 (tick cfg (sa.seen pc τ) weak pc).2 mf' w ok) := by
  have hbs : Blank (sa.seen pc τ) := hb.see _
  have hnx : (sa.seen pc τ).next = sf.m.next := by rw [seen_next, hm.next]
  rw [hseen.builds]
  generalize hB : pc.builds (sa.seen pc τ) = new
  generalize hO : new.map (fun _ => sf.m.next) = own
  have hcd : ∀ a, ((sf.seen pc τ).create sf.m.next new).deref a = if a = sf.m.next ∧ new.isSome then new else (sa.seen pc τ).deref a := by
    intro a
    cases new with
    | none => simp [Mem.create, hseen.deref]
    | some nd =>
      rw [create_deref]
      by_cases e : a = sf.m.next
      · simp [e]
      · simp [e, hseen.deref]
  have hsub : Sub (sa.seen pc τ) ((sf.seen pc τ).create sf.m.next new) := by
    refine ⟨by rw [create_root, hseen.root], fun a nd h => ?_⟩
    rw [hcd]
    have : a ≠ sf.m.next := by
      rintro rfl
      rw [← hnx, hbs.deref] at h
      cases h
    simp [this, h]
  obtain ⟨mf', w, ok, hs⟩ := tick_split (cfg := cfg) (weak := weak) (own := own) hsub hbs (pc := pc) hnew (by
    rw [hB, ← hO, hnx]
    cases new <;> rfl) (by
    intro nd h
    rw [hB] at h
    rw [hnx, hcd]; simp [h]) hok
  have hstore : ok = true → pc.writes (sa.seen pc τ) weak = true := by
    intro e
    have hacc := hs.acc
    simp only [PC.fineAccess] at hacc
    cases ha : pc.access .code with
    | none => rw [ha] at hacc; simp only [Option.some.injEq, Prod.mk.injEq] at hacc; rw [← hacc.2.2] at e; cases e
    | some x =>
      rw [ha] at hacc
      rcases hs.word with ⟨loc, o, h1, h2⟩ | ⟨h1, -⟩
      · rw [h1] at ha; cases ha
        simp only [hsub.read h2] at hacc
        split at hacc
        · next hst =>
          simp only [PC.writes, h1, h2]
          rw [← storesIf_stores]; exact hst
        · simp only [Option.some.injEq, Prod.mk.injEq] at hacc; rw [← hacc.2.2] at e; cases e
      · rw [h1] at ha; cases ha
  have hτ : ok = true → τ = sa.m.clock := by
    intro e
    apply Classical.byContradiction
    intro hne
    have := hst hne
    rw [hstore e] at this; cases this
  have hmf : ok = false → mf' = (sf.seen pc τ).create sf.m.next new := by
    intro e
    have hacc := hs.acc
    simp only [PC.fineAccess] at hacc
    split at hacc
    · simp only [Option.some.injEq, Prod.mk.injEq] at hacc; exact hacc.1.symm
    · split at hacc
      · cases hacc
      · split at hacc
        · simp only [Option.some.injEq, Prod.mk.injEq] at hacc; rw [← hacc.2.2] at e; cases e
        · simp only [Option.some.injEq, Prod.mk.injEq] at hacc; exact hacc.1.symm
  -- the address used
  have hfn : (tick cfg (sa.seen pc τ) weak pc).1.freed sf.m.next = false := by
    rw [tick_freed, seen_freed, hm.next]; exact hb.freed
  have hnext : (tick cfg (sa.seen pc τ) weak pc).1.next = if ok = true ∧ own.isSome then sf.m.next + 1 else sf.m.next := by
    have hrd := hs.rdom sf.m.next
    have hno : (sa.seen pc τ).deref sf.m.next = none := by rw [← hnx]; exact hbs.deref
    have hown : own.isSome → own = some sf.m.next := by
      intro h; rw [← hO] at h ⊢; cases new with
      | none => cases h
      | some nd => rfl
    have hmd : (tick cfg (sa.seen pc τ) weak pc).1.deref sf.m.next = (tick cfg (sa.seen pc τ) weak pc).1.mem sf.m.next := by simp [Mem.deref, hfn]
    rw [hno, hmd] at hrd
    have hc := tick_next_mem cfg hbs.mem weak pc
    rw [hnx] at hc
    rcases hc with ⟨c1, c2⟩ | ⟨c1, c2⟩
    · rw [c1, if_neg]
      rintro ⟨h1, h2⟩
      exact hrd.mpr (.inr ⟨h1, hown h2⟩) c2
    · rw [c1, if_pos]
      rcases hrd.mp c2 with h | ⟨h1, h2⟩
      · exact absurd rfl h
      · exact ⟨h1, by rw [h2]; rfl⟩
  refine ⟨mf', w, ok, hs.acc, hτ, ?_, _, mf', hs⟩
  have hdom : ∀ a, (tick cfg (sa.seen pc τ) weak pc).1.deref a = none → ok = true → mf'.deref a = none := by
    intro a ha e
    rw [hs.dom, hcd]
    have := hs.rdom a
    rw [ha] at this
    have h1 : ¬ ((sa.seen pc τ).deref a ≠ none ∨ (ok = true ∧ own = some a)) := fun h => this.mpr h rfl
    have h2 : (sa.seen pc τ).deref a = none := by
      apply Classical.byContradiction
      intro h; exact h1 (.inl h)
    split
    · next h =>
      exfalso
      obtain ⟨rfl, h⟩ := h
      refine h1 (.inr ⟨e, ?_⟩)
      rw [← hO]
      cases new with
      | none => cases h
      | some nd => rfl
    · exact h2
  cases hk : ok with
  | true =>
    have e := hτ hk
    rw [if_pos e]
    simp only [Mem.stored, if_true]
    refine ⟨hs.sub.root, fun a => ?_, ?_, ?_⟩
    · show mf'.deref a = _
      cases hd : (tick cfg (sa.seen pc τ) weak pc).1.deref a with
      | none => exact hdom a hd hk
      | some nd => exact hs.sub.live a nd hd
    · show (if own.isSome = true then sf.m.next + 1 else sf.m.next) = _
      rw [hnext]; simp [hk]
    · show mf'.clock = _
      rw [hs.clock.1, create_clock, hs.clock.2, hseen.clock]
  | false =>
    simp only [Mem.stored, Bool.false_eq_true, if_false]
    split
    · next e =>
      have hmm := hmf hk
      have hsn := seen_now sa pc
      rw [← e] at hsn
      refine ⟨?_, fun a => ?_, ?_, ?_⟩
      · have := hs.sub.root
        rw [hmm, create_root, hseen.root, hsn.root] at this
        rw [hm.root, this]
      · rw [hm.deref, ← hsn.deref]
        cases hd : (tick cfg (sa.seen pc τ) weak pc).1.deref a with
        | none =>
          have := hs.rdom a
          rw [hd, hk] at this
          apply Classical.byContradiction
          intro h; exact this.mpr (.inl h) rfl
        | some nd =>
          have h1 := hs.sub.live a nd hd
          rw [hmm, hcd] at h1
          split at h1
          · next h =>
            exfalso
            obtain ⟨rfl, -⟩ := h
            have := (hs.rdom sf.m.next).mp (by rw [hd]; simp)
            rw [hk] at this
            rcases this with h | ⟨h, -⟩
            · exact h (by rw [← hnx]; exact hbs.deref)
            · cases h
          · exact h1
      · rw [hnext]; simp [hk]
      · rw [hs.clock.2, hm.clock, ← hsn.clock]
    · exact hm

end Contrie
