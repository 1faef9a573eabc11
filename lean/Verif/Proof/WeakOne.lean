import Verif.Proof.OneRemExec
import Verif.Proof.CohTick
/-
Cleaning up on weak memory: steps of updates that do not store, and that may have seen an old value.
-/
set_option linter.unusedSectionVars false
namespace Contrie
variable {K P : Type} [DecidableEq K]
variable {cfg : Config K P} {A : Nat → AMap K P} {m mw : Mem P} {weak : Bool} {w : Word} {ℓ : Loc}
  {I : K → Prop} {R : Option (BitVec 64 × PC K P)}

theorem whole_held {m : Mem P} {q : List (Fin 16)} (hw : WordOK cfg m w q) : WHeld m 0 w := by
  intro b hp
  apply held_zero
  cases hd : w.data with
  | true => obtain ⟨l, h1, -⟩ := hw.of_data hp hd; rw [h1]; simp
  | false => obtain ⟨c, h1⟩ := hw.of_inner hp hd; rw [h1]; simp

/-- What the removal needs to know about the value it has loaded, if it is not pruning: what it has seen is not gone. -/
def StillThere (m : Mem P) (ℓ : Loc) (w : Word) : Prop :=
  w.ptr ≠ none → ∃ w2, m.read ℓ = some w2 ∧ w2.ptr ≠ none ∧ (w.data = false → w2.ptr = w.ptr ∧ w2.data = false)

theorem OInv.idle {h : BitVec 64} {pc pc' : PC K P} (ho : OInv cfg m I (some (h, pc))) (h1 : pc.on = none) (ht : pc'.todo m = pc.todo m)
    (hr : RemPC m h pc') : OInv cfg m.bump I (some (h, pc')) := by
  refine OInv.bump ⟨ho.s.change ?_ ?_, by intro h pc' e; cases e; exact hr⟩
  · rintro a c p - - (e | e | ⟨h, pc, e1, e2⟩)
    · exact Or.inl e
    · exact Or.inr (Or.inl e)
    · cases e1; exact Or.inr (Or.inr ⟨_, _, rfl, by rw [ht]; exact e2⟩)
  · intro a i _ e; exact absurd e (PC.on_rem h1 _)

theorem OInv.over {h : BitVec 64} {pc : PC K P} (ho : OInv cfg m I (some (h, pc))) (h1 : pc.on = none) (ht : pc.todo m = 0) : OInv cfg m.bump I none := by
  refine OInv.bump ⟨ho.s.change ?_ ?_, by intro h pc e; cases e⟩
  · rintro a c p - - (e | e | ⟨h, pc, e1, -, e2⟩)
    · exact Or.inl e
    · exact Or.inr (Or.inl e)
    · cases e1; omega
  · intro a i _ e; exact absurd e (PC.on_rem h1 _)

theorem weakRem {c : Call K P} (x : Ctx cfg A m 0) {key : K} {shift : Nat} {levels : List (Loc × Word)}
    (hpc : c.pc = .rem key shift ℓ levels) (hi : PCInv cfg A m { c with inv := 0 }) (ho : OInv cfg m I (some (cfg.hash key, c.pc)))
    (hs : QSeen cfg m mw ℓ w) (hcond : w.cond = true → m.read ℓ = some w) (hst : StillThere m ℓ w) :
    RemNext cfg m.bump I (cfg.hash key) (tick cfg mw weak c.pc).2 := by
  simp only [PCInv, hpc] at hi
  obtain ⟨hreq, hcalls, d, rfl, ht⟩ := hi
  have hr' := ho.r _ _ rfl
  rw [hpc] at hr' ho
  obtain ⟨hl, hlv⟩ := hr'
  simp only [hpc, tick]
  have hloc : LocAt m 0 ℓ (pre (cfg.hash key) d) := ht.loc
  obtain ⟨w2, hr2, hat, hheld2, hok2⟩ := x.read hloc
  have hok := hs.ok _ hloc
  have hheld := whole_held hok
  have hc2 := ho.cell_clean x.h hat hl (fun a i _ => PC.on_rem rfl _)
  have hc : w.cond = false := by
    cases e : w.cond with
    | false => rfl
    | true => have := hcond e; rw [hr2] at this; cases this; rw [hc2] at e; cases e
  simp only [tickRem, hs.read]
  cases hp : w.ptr with
  | none => exact ho.over rfl rfl
  | some a =>
    simp only [hc, Bool.false_eq_true, if_false]
    cases hdt : w.data with
    | true =>
      simp only [if_true]
      split
      · trivial
      · split
        · exact ho.over rfl rfl
        · simp only [RemNext]; exact ho.idle rfl rfl ⟨hl, hlv⟩
    | false =>
      simp only [Bool.false_eq_true, if_false]
      obtain ⟨w3, e1, e2, e3⟩ := hst (by rw [hp]; simp)
      rw [hr2] at e1; cases e1
      have e3 := e3 hdt
      have hww : w2 = ⟨some a, false, false⟩ := word_eq_inner (by rw [e3.1, hp]) e3.2 hc2
      have hw' : w = ⟨some a, false, false⟩ := word_eq_inner hp hdt hc
      split
      · trivial
      · split
        · trivial
        · simp only [RemNext]
          obtain ⟨h1, h2, ⟨cs, h3⟩, h4⟩ := x.descend ht.len hok hheld hp hdt
          refine ho.idle rfl rfl ⟨⟨x.h.live _ _ a (x.h.live_follow hat hl.liveLoc) (by rw [hww]; rfl), cs, _, h3⟩, ?_⟩
          refine ⟨⟨a, cs, hw', ?_, ?_⟩, hlv⟩
          · rw [ht.levels_len]; exact h3
          · rw [ht.levels_len, hw', ← hww]; exact hat

theorem weakRemCas {c : Call K P} {key : K} {shift : Nat} {levels : List (Loc × Word)} {node : Word} {new : List P} {deleted : P}
    (hpc : c.pc = .remCas key shift ℓ levels node new deleted) (ho : OInv cfg m I (some (cfg.hash key, c.pc)))
    (hs : QSeen cfg m mw ℓ w) (hw : c.pc.writes mw weak = false) :
    RemNext cfg m.bump I (cfg.hash key) (tick cfg mw weak c.pc).2 := by
  have hr' := ho.r _ _ rfl
  rw [hpc] at hr' ho
  have hn : ¬ (w = node ∧ weak = false) := by
    intro e
    rw [hpc] at hw
    simp [PC.writes, PC.access, hs.read, PC.stores, e] at hw
  simp only [hpc, tick, tickRemCas, hs.read, hn, if_false]
  exact ho.idle rfl rfl hr'

theorem weakCount {c : Call K P} (x : Ctx cfg A m 0) {deleted : P} {ref : Nat} {parent : Loc} {child : Word} {a : Nat}
    {rest : List (Loc × Word)} {i : Fin 16} {cnt : Nat} {h : BitVec 64}
    (hpc : c.pc = .count deleted ref parent child rest i cnt) (ha : child.ptr = some a) (ho : OInv cfg m I (some (h, c.pc)))
    (hs : QSeen cfg m mw (.slot a i) w) (hst : StillThere m (.slot a i) w) :
    RemNext cfg m.bump I h (tick cfg mw weak c.pc).2 := by
  have hr' := ho.r _ _ rfl
  rw [hpc] at hr' ho
  obtain ⟨hlv, hcnt⟩ := hr'
  obtain ⟨a', cs, rfl, hm, hat, hret, hlt, hplen⟩ := hlv.head_live x.h
  cases ha
  obtain ⟨a4, c4, p4, g1, g2, g3, g4⟩ := hcnt
  cases g1
  rw [hm] at g2; cases g2
  have hnow : w.ptr ≠ none → (cs i).ptr ≠ none := by
    intro e
    obtain ⟨w2, e1, e2, -⟩ := hst e
    have e3 : m.read (.slot a i) = some (cs i) := by
      simp [Mem.read, Mem.deref, hs.freed a, hm]
    rw [e3] at e1; cases e1; exact e2
  simp only [hpc, tick, tickCount, hs.read]
  generalize hcnt' : (if w.ptr.isSome = true then cnt + 1 else cnt) = cnt'
  have hok1 : 1 ≤ cnt' → ∃ j : Fin 16, j.val < i.val + 1 ∧ (cs j).ptr ≠ none := by
    intro hc
    split at hcnt'
    · next he => exact ⟨i, by omega, hnow (by intro e; rw [e] at he; cases he)⟩
    · subst hcnt'; obtain ⟨j, e1, e2⟩ := g3 hc; exact ⟨j, by omega, e2⟩
  have hok2 : 2 ≤ cnt' → ∃ j j' : Fin 16, j ≠ j' ∧ (cs j).ptr ≠ none ∧ (cs j').ptr ≠ none := by
    intro hc
    split at hcnt'
    · next he =>
      obtain ⟨j, e1, e2⟩ := g3 (by omega)
      exact ⟨j, i, by intro e; subst e; omega, e2, hnow (by intro e; rw [e] at he; cases he)⟩
    · subst hcnt'; exact g4 hc
  have hnotEx : ∀ j h' pc', some (h, (.count deleted ref parent ⟨some a, false, false⟩ rest i cnt : PC K P)) = some (h', pc') →
      ¬ exRem h' (pc'.todo m) (pre h rest.length ++ [j]) := by
    intro j h' pc' e
    cases e
    rintro ⟨-, e⟩
    simp [PC.todo, hplen] at e
  split
  · simp only [RemNext]
    exact ho.idle rfl rfl ⟨hlv, a, cs, _, rfl, hm, hok1, hok2⟩
  · split
    · simp only [RemNext]
      obtain ⟨j, j', e1, e2, e3⟩ := hok2 (by omega)
      have htwo := ho.cells_two x.h hm hret e1 e2 e3 hnotEx
      refine OInv.bump (rem_done_one (h := h) (n := rest.length) (cd := noCd) (ho.s.change ?_ ?_) (fun _ _ _ h => h) (Or.inl htwo) (by omega))
      · rintro a c p - - (e | e | ⟨h, pc, e1, e2⟩)
        · exact Or.inl e
        · exact Or.inr (Or.inl e)
        · cases e1; exact Or.inr (Or.inr e2)
      · intro a i _ e; exact absurd e (PC.on_rem rfl _)
    · simp only [enterPrune, Bool.false_eq_true, if_false, RemNext]
      refine ho.idle rfl ?_ ⟨hlv.2, hlt, a, cs, rfl, hm, fun _ => hat, Acc2.init m cs, by intro j hj; simp at hj⟩
      simp [PC.todo, liveBit, hret]

theorem weakPruneCas {c : Call K P} {child : Word} {acc : PAcc}
    {deleted : P} {ref : Nat} {rest : List (Loc × Word)} {h : BitVec 64}
    (hpc : c.pc = .pruneCas ℓ child acc (.clean deleted ref rest)) (ho : OInv cfg m I (some (h, c.pc)))
    (hs : QSeen cfg m mw ℓ w) (hw : c.pc.writes mw weak = false) (hgone : w ≠ child → ∀ a, child.ptr = some a → m.retired a ≠ none) :
    RemNext cfg m.bump I h (tick cfg mw weak c.pc).2 ∧ ∀ a, c.pc.on = some a → m.bump.retired a ≠ none := by
  have hr' := ho.r _ _ rfl
  rw [hpc] at hr' ho
  obtain ⟨hlv, hlt, a, cs, rfl, hm, hat, hacc, hcnd⟩ := hr'
  have hne : w ≠ ⟨some a, false, false⟩ := by
    intro e
    rw [hpc] at hw
    simp [PC.writes, PC.access, hs.read, PC.stores, e] at hw
  have hret : m.retired a ≠ none := hgone hne a rfl
  obtain ⟨cs', hmw⟩ := hs.inner a cs _ hm
  have hderef : mw.deref a = some (.inner cs' (pre h rest.length)) := by simp [Mem.deref, hs.freedw a, hmw]
  refine ⟨?_, by intro b e; rw [hpc] at e; cases e; exact hret⟩
  have htick : (tick cfg mw weak c.pc).2 = afterPrune .casFail (.clean deleted ref rest) := by
    simp [hpc, tick, tickPruneCas, hs.read, hderef, hne]
  rw [htick]
  have hclean : RemNext cfg m.bump I h (enterClean deleted ref rest : Next K P) := by
    refine enterClean_one (hlv.same rfl rfl) ?_
    have : SInv cfg m (fun p => (∃ k, I k ∧ exTrav cfg (m.abs cfg) k p) ∨ exRem h rest.length p) noCd := by
      refine ho.s.change ?_ ?_
      · rintro b c p - - (e | e | ⟨h', pc', e1, e2⟩)
        · exact Or.inl e
        · exact Or.inr (Or.inl e)
        · cases e1
          have : (PC.pruneCas ℓ ⟨some a, false, false⟩ acc (.clean deleted ref rest) : PC K P).todo m = rest.length := by
            simp [PC.todo, liveBit, hret]
          rw [this] at e2
          exact Or.inr (Or.inr e2)
      · rintro b i hb ⟨h', pc', e1, e2⟩
        cases e1
        simp only [PC.on, Option.some.injEq] at e2
        subst e2
        exact absurd hb hret
    exact this.same rfl rfl rfl
  simpa [afterPrune] using hclean

/-- A step of the removal that does not store. -/
theorem weakRemTick {c : Call K P} (x : Ctx cfg A m 0) (hi : PCInv cfg A m { c with inv := 0 }) {k : K} (hreq : c.req = .op (.remove k))
    (ho : OInv cfg m I (some (cfg.hash k, c.pc))) {o : LoadOrd} (ha : c.pc.access .code = some (ℓ, o)) (hs : QSeen cfg m mw ℓ w)
    (hw : c.pc.writes mw weak = false) (hcond : w.cond = true → m.read ℓ = some w) (hst : c.pc.on = none → StillThere m ℓ w)
    (hgone : ∀ child acc deleted ref rest, c.pc = .pruneCas ℓ child acc (.clean deleted ref rest) → w ≠ child → ∀ a, child.ptr = some a → m.retired a ≠ none) :
    RemNext cfg m.bump I (cfg.hash k) (tick cfg mw weak c.pc).2 ∧
    ∀ a, c.pc.on = some a → m.bump.retired a ≠ none := by
  have hr := ho.r _ _ rfl
  cases hpc : c.pc with
  | get => rw [hpc] at hr; exact hr.elim
  | isEmpty => rw [hpc] at hr; exact hr.elim
  | iterNew => rw [hpc] at hr; exact hr.elim
  | iterNext => rw [hpc] at hr; exact hr.elim
  | trav => rw [hpc] at hr; exact hr.elim
  | travCas => rw [hpc] at hr; exact hr.elim
  | rem key shift cur levels =>
    have hk : key = k := by
      have h := hi
      simp only [PCInv, hpc] at h
      rw [hreq] at h
      have := h.1
      injection this with this; injection this with this; exact this.symm
    subst hk
    rw [hpc] at ha
    cases ha
    rw [← hpc]
    exact ⟨weakRem x hpc hi ho hs hcond (hst (by rw [hpc]; rfl)), fun a h => by rw [hpc] at h; cases h⟩
  | remCas key shift cur levels node new deleted =>
    have hk : key = k := by
      have h := hi
      simp only [PCInv, hpc] at h
      rw [hreq] at h
      have := h.1
      injection this with this; injection this with this; exact this.symm
    subst hk
    rw [hpc] at ha
    cases ha
    rw [← hpc]
    exact ⟨weakRemCas hpc ho hs hw, fun a h => by rw [hpc] at h; cases h⟩
  | count deleted ref parent child rest i cnt =>
    rw [hpc] at ha
    simp only [PC.access] at ha
    cases hp : child.ptr with
    | none => simp [hp] at ha
    | some a =>
      simp [hp] at ha
      obtain ⟨rfl, -⟩ := ha
      rw [← hpc]
      exact ⟨weakCount x hpc hp ho hs (hst (by rw [hpc]; rfl)), fun a h => by rw [hpc] at h; cases h⟩
  | prune parent child i acc kk =>
    exfalso
    rw [hpc] at ha hw
    simp [PC.writes, ha, hs.read, PC.stores] at hw
  | pruneCas parent child acc kk =>
    cases kk with
    | trav => rw [hpc] at hr; exact hr.elim
    | rem => rw [hpc] at hr; exact hr.elim
    | clean deleted ref rest =>
      rw [hpc] at ha
      cases ha
      rw [← hpc]
      exact weakPruneCas hpc ho hs hw (hgone child acc deleted ref rest hpc)

/-! ### Insertions -/

theorem weakTrav {c : Call K P} (x : Ctx cfg A m 0) {st : TState K P} {hash : BitVec 64} {mode : Mode}
    {shift : Nat} {parent : Option (Loc × Word)}
    (hpc : c.pc = .trav st hash mode shift ℓ parent) (hi : PCInv cfg A m { c with inv := 0 }) (hh : Helps m c.pc)
    (ho : OInv cfg m I R) (hs : QSeen cfg m mw ℓ w) (hcond : w.cond = true → m.read ℓ = some w)
    (hex : mode = .ifMissing → ∀ v, m.leafVal cfg (st.key cfg) w = some (some v) → m.abs cfg (st.key cfg) ≠ none) :
    InsNext cfg m.bump I R (st.key cfg) (tick cfg mw weak c.pc).2 := by
  simp only [PCInv, hpc] at hi
  simp only [Helps, hpc] at hh
  obtain ⟨d, rfl, ht⟩ := hi
  simp only [hpc, tick]
  have hloc : LocAt m 0 ℓ (pre hash d) := ht.loc
  have hok := hs.ok _ hloc
  have hheld := whole_held hok
  cases hc : w.cond with
  | true =>
    obtain ⟨w2, hr2, hat, -, -⟩ := x.read hloc
    have := hcond hc
    rw [hr2] at this; cases this
    simp only [tickTrav, hs.read, hc, if_true]
    cases hpar : parent with
    | none => trivial
    | some y =>
      obtain ⟨p, child⟩ := y
      obtain ⟨a, i, rfl, e2⟩ := hh p child hpar
      obtain ⟨a2, cs2, q2, h1, h2, h3, h4⟩ := ht.par _ hpar
      simp only at h1
      subst h1
      cases e2
      simp only [enterPrune, Bool.false_eq_true, if_false, InsNext]
      refine ⟨ho.bump, a, cs2, q2, rfl, h2, ?_, Acc2.init _ cs2, by intro j hj; simp at hj⟩
      intro hlive
      obtain ⟨c3, p3, g1, g2, g3⟩ := hat
      exact ho.s.clean a c3 p3 i g1 hlive (by rw [g3]; exact hc)
  | false =>
    simp only [tickTrav, hs.read, hc, Bool.false_eq_true, if_false]
    cases hp : w.ptr with
    | none => exact ⟨ho.bump, trivial⟩
    | some a =>
      cases hdt : w.data with
      | true =>
        obtain ⟨items, h1, h2, h3⟩ := x.load hok hheld hp hdt
        simp only [if_true, hs.load, h1]
        cases items with
        | nil => trivial
        | cons d0 rest =>
          simp only
          split
          · split
            · trivial
            · exact ⟨ho.bump, trivial⟩
          · split
            · exact ⟨ho.bump, trivial⟩
            · next hm =>
              cases hf : (d0 :: rest).find? (fun l => decide (cfg.key l = st.key cfg)) with
              | none => rw [hf] at hm; simp at hm
              | some e =>
                have hmode : mode = .ifMissing := by
                  cases mode with
                  | overwrite => simp at hm
                  | ifMissing => rfl
                refine finishTrav_one ho.bump ?_
                have : m.bump.abs cfg = m.abs cfg := abs_mem rfl rfl
                rw [this]
                refine hex hmode e ?_
                rw [leafVal_data hp hdt h2, hf]
      | false =>
        simp only [Bool.false_eq_true, if_false]
        split
        · trivial
        · exact ⟨ho.bump, trivial⟩

/-- A step of an insertion that does not store. -/
theorem weakInsTick {c : Call K P} (x : Ctx cfg A m 0) (hi : PCInv cfg A m { c with inv := 0 }) (hh : Helps m c.pc)
    {k : K} (hreq : c.req.insKey cfg = some k) (ho : OInv cfg m I R)
    {o : LoadOrd} (ha : c.pc.access .code = some (ℓ, o)) (hs : QSeen cfg m mw ℓ w)
    (hw : c.pc.writes mw weak = false) (hcond : w.cond = true → m.read ℓ = some w)
    (hex : ∀ st hash shift parent, c.pc = .trav st hash .ifMissing shift ℓ parent → ∀ v, m.leafVal cfg k w = some (some v) → m.abs cfg k ≠ none) :
    InsNext cfg m.bump I R k (tick cfg mw weak c.pc).2 := by
  have h := hi
  unfold PCInv at h
  cases hpc : c.pc with
  | get => simp only [hpc] at h; rw [h.1] at hreq; cases hreq
  | isEmpty => simp only [hpc] at h; rw [h.1] at hreq; cases hreq
  | iterNew => simp only [hpc] at h; rw [h.1] at hreq; cases hreq
  | iterNext => simp only [hpc] at h; rw [h.1] at hreq; cases hreq
  | rem => simp only [hpc] at h; rw [h.1] at hreq; cases hreq
  | remCas => simp only [hpc] at h; rw [h.1] at hreq; cases hreq
  | count => simp only [hpc] at h; obtain ⟨⟨k, e⟩, -⟩ := h; rw [e] at hreq; cases hreq
  | trav st hash mode shift cur parent =>
    simp only [hpc] at h
    obtain ⟨d, -, ht⟩ := h
    rw [ht.req.insKey] at hreq; cases hreq
    rw [hpc] at ha
    cases ha
    rw [← hpc]
    exact weakTrav x hpc hi hh ho hs hcond (fun e => hex st hash shift parent (by rw [hpc, e]))
  | travCas st hash mode shift cur parent node new kind =>
    rw [hpc] at ha hw
    cases ha
    have hn : ¬ (w = node ∧ weak = false) := by
      intro e
      simp [PC.writes, PC.access, hs.read, PC.stores, e] at hw
    simp only [tick, tickTravCas, hs.read, hn, if_false]
    exact ⟨ho.bump, trivial⟩
  | prune parent child i acc kk =>
    exfalso
    rw [hpc] at ha hw
    simp [PC.writes, ha, hs.read, PC.stores] at hw
  | pruneCas parent child acc kk =>
    simp only [hpc] at h
    obtain ⟨hk, a, cs, q, e1, hm, hh2, hloc, hacc⟩ := h
    have hne : w ≠ child := by
      intro e
      rw [hpc] at ha hw
      cases ha
      simp [PC.writes, PC.access, hs.read, PC.stores, e] at hw
    rw [hpc] at ha
    cases ha
    obtain ⟨cs', hmw⟩ := hs.inner a cs _ hm
    have hderef : mw.deref a = some (.inner cs' q) := by simp [Mem.deref, hs.freedw a, hmw]
    cases kk with
    | trav st hash mode =>
      have htick : (tick cfg mw weak (.pruneCas ℓ child acc (.trav st hash mode))).2 = afterPrune .casFail (.trav st hash mode) := by
        simp [tick, tickPruneCas, hs.read, e1, hderef, e1 ▸ hne]
      rw [htick]
      exact ⟨ho.bump, trivial⟩
    | rem => rw [hk.1] at hreq; cases hreq
    | clean => obtain ⟨⟨⟨k, e⟩, -⟩, -⟩ := hk; rw [e] at hreq; cases hreq

end Contrie
