import Verif.Proof.WeakCas
/-
The invariant of the weak memory machine and its preservation.
-/
set_option linter.unusedSectionVars false
namespace Contrie
variable {K P : Type} [DecidableEq K]

/-- The invariant of a session. -/
structure WThreadInv (cfg : Config K P) (M : WMem P) (th : WThread K P) : Prop where
  view : ViewOK M th.view
  knows : ViewOK M th.Knows
  ok : th.failed = none
  refs : ∀ r ∈ th.refs, th.Knows r ∧ ∃ l, M.nodes r = some (.data l)
  run : ∀ c, th.run = some c → WPCInv cfg M.ideal c ∧ ∀ a, c.pc.Holds a → th.Knows a

/-- The invariant of the machine. -/
structure WInv (cfg : Config K P) (s : WState K P) : Prop where
  mem : WMemInv cfg s.m
  thr : ∀ t, WThreadInv cfg s.m (s.thr t)

section
variable {cfg : Config K P} {M : WMem P} {Kn : Nat → Prop}

theorem seen_ctx (hM : WMemInv cfg M) (hK : ViewOK M Kn) (rd : Option (Loc × Word)) : WCtx cfg M Kn (M.seen Kn rd) := by
  have hw : ∀ (m : Mem P) (loc : Loc) (w : Word), (m.write w loc).next = m.next ∧ (m.write w loc).freed = m.freed ∧
      (∀ a l, m.mem a = some (.data l) → (m.write w loc).mem a = some (.data l)) ∧
      ∀ a c p, m.mem a = some (.inner c p) → ∃ c', (m.write w loc).mem a = some (.inner c' p) := by
    intro m loc w
    cases loc with
    | root => exact ⟨rfl, rfl, fun _ _ h => h, fun _ c _ h => ⟨c, h⟩⟩
    | slot b i =>
      simp only [Mem.write]
      split
      · next cs path hb =>
        refine ⟨rfl, rfl, ?_, ?_⟩
        · intro a l ha
          have : a ≠ b := by intro e; rw [e, hb] at ha; cases ha
          simp [upd_other _ _ this, ha]
        · intro a c p ha
          by_cases e : a = b
          · subst e; rw [hb] at ha; cases ha; exact ⟨_, by simp; rfl⟩
          · exact ⟨c, by simp [upd_other _ _ e, ha]⟩
      · exact ⟨rfl, rfl, fun _ _ h => h, fun _ c _ h => ⟨c, h⟩⟩
  cases rd with
  | none =>
    exact ⟨hM, hK, rfl, fun _ => rfl, fun a l h1 h2 => by simp [WMem.seen, h1, h2],
      fun a c p h1 h2 => ⟨c, by simp [WMem.seen, h1, h2]⟩⟩
  | some x =>
    obtain ⟨loc, w⟩ := x
    simp only [WMem.seen]
    refine ⟨hM, hK, (hw _ loc w).1, fun a => by rw [(hw _ loc w).2.1], fun a l h1 h2 => ?_, fun a c p h1 h2 => ?_⟩
    · exact (hw _ loc w).2.2.1 a l (by simp [h1, h2])
    · exact (hw _ loc w).2.2.2 a c p (by simp [h1, h2])

theorem seen_read {loc : Loc} {q : List (Fin 16)} (hq : LocAt M.ideal 0 loc q) (hk : ∀ a, loc.node = some a → Kn a)
    (w : Word) : (M.seen Kn (some (loc, w))).read loc = some w := by
  cases loc with
  | root => rfl
  | slot a i =>
    obtain ⟨c, p, h1, -⟩ := hq
    have h1' : M.nodes a = some (.inner c p) := h1
    simp [WMem.seen, Mem.write, hk a rfl, h1', Mem.read, Mem.deref]

/-- The next access goes to a cell of a node the session holds. -/
theorem access_loc (hM : WMemInv cfg M) {O : Orders} {c : Call K P} (hi : WPCInv cfg M.ideal c) {loc : Loc} {o : LoadOrd}
    (ha : c.pc.access O = some (loc, o)) :
    (∃ q, LocAt M.ideal 0 loc q) ∧ ∀ a, loc.node = some a → c.pc.Holds a := by
  have slot : ∀ {a : Nat} {cs q} (i : Fin 16), M.ideal.mem a = some (.inner cs q) →
      LocAt M.ideal 0 (.slot a i) (q ++ [i]) := by
    intro a cs q i h
    exact ⟨cs, q, h, rfl, held_ideal (by intro e; rw [show M.ideal.mem a = M.nodes a from rfl, e] at h; cases h)⟩
  unfold WPCInv at hi
  cases hpc : c.pc with
  | get key hash cur =>
    simp only [hpc] at hi ha
    cases ha
    obtain ⟨d, -, -, h⟩ := hi
    exact ⟨⟨_, h⟩, fun a h => h⟩
  | isEmpty =>
    simp only [hpc] at ha
    cases ha
    exact ⟨⟨[], rfl⟩, fun a h => by cases h⟩
  | iterNew =>
    simp only [hpc] at ha
    cases ha
    exact ⟨⟨[], rfl⟩, fun a h => by cases h⟩
  | iterNext lv out =>
    simp only [hpc] at hi ha
    obtain ⟨qs, hs⟩ := hi
    simp only [PC.access] at ha
    split at ha
    · cases ha
    · next w idx rest =>
      split at ha
      · cases ha
      · next a hp =>
        split at ha
        · cases ha
        · next hd =>
          simp at hd
          split at ha
          · cases ha
            have hw : ∃ q, WordOK cfg M.ideal w q := by
              cases hs with
              | root _ _ hw _ => exact ⟨_, hw⟩
              | push _ _ _ _ _ _ _ _ _ hw _ => exact ⟨_, hw⟩
            obtain ⟨q, hw⟩ := hw
            obtain ⟨cs, hm⟩ := hw.of_inner hp hd
            refine ⟨⟨_, slot _ hm⟩, fun b hb => ?_⟩
            cases hb
            exact ⟨_, List.mem_cons_self, hp⟩
          · cases ha
  | trav st hash mode shift cur parent =>
    simp only [hpc] at hi ha
    cases ha
    obtain ⟨d, -, h⟩ := hi
    exact ⟨⟨_, h.loc⟩, fun a h => Or.inl h⟩
  | travCas st hash mode shift cur parent node new kind =>
    simp only [hpc] at hi ha
    cases ha
    obtain ⟨d, -, h, -⟩ := hi
    exact ⟨⟨_, h.loc⟩, fun a h => Or.inl (Or.inl h)⟩
  | rem key shift cur levels =>
    simp only [hpc] at hi ha
    cases ha
    obtain ⟨-, -, d, -, h⟩ := hi
    exact ⟨⟨_, h.loc⟩, fun a h => Or.inl h⟩
  | remCas key shift cur levels node new deleted =>
    simp only [hpc] at hi ha
    cases ha
    obtain ⟨-, -, d, _, _, -, h, -⟩ := hi
    exact ⟨⟨_, h.loc⟩, fun a h => Or.inl (Or.inl h)⟩
  | count deleted ref parent child rest i cnt =>
    simp only [hpc] at hi ha
    obtain ⟨-, -, -, a, cs, q, h1, h2, -⟩ := hi
    simp only at h1
    subst h1
    simp only [PC.access, Option.map_some, Option.some.injEq, Prod.mk.injEq] at ha
    obtain ⟨rfl, rfl⟩ := ha
    refine ⟨⟨_, slot i h2⟩, fun b hb => ?_⟩
    cases hb
    exact Or.inr (Or.inr rfl)
  | prune parent child i acc k =>
    simp only [hpc] at hi ha
    obtain ⟨-, a, cs, q, rfl, h2, -⟩ := hi
    simp only [PC.access, Option.map_some, Option.some.injEq, Prod.mk.injEq] at ha
    obtain ⟨rfl, rfl⟩ := ha
    refine ⟨⟨_, slot i h2⟩, fun b hb => ?_⟩
    cases hb
    exact Or.inr (Or.inl (Or.inr rfl))
  | pruneCas parent child acc k =>
    simp only [hpc] at hi ha
    cases ha
    obtain ⟨-, a, cs, q, -, -, h, -⟩ := hi
    exact ⟨⟨_, h⟩, fun b hb => Or.inr (Or.inl (Or.inl hb))⟩

/-- All the steps together. -/
theorem wtick_ok {m : Mem P} (x : WCtx cfg M Kn m) {weak : Bool} {w : Word} {c : Call K P} (hi : WPCInv cfg M.ideal c)
    (hh : ∀ a, c.pc.Holds a → Kn a)
    (hr : ∀ loc o, c.pc.access .code = some (loc, o) → WRead cfg M m loc w ∧
      (o ≠ .relaxed → ∀ b, w.ptr = some b → Kn b)) :
    WTickOK cfg .code M Kn m weak w c (tick cfg m weak c.pc) := by
  cases hpc : c.pc with
  | get key hash cur =>
    obtain ⟨h1, h2⟩ := hr cur _ (by rw [hpc]; rfl)
    have := wTickGet (O := .code) (weak := weak) x hpc hi h1 (h2 (by simp [Orders.code]))
    rwa [hpc] at this
  | isEmpty =>
    refine .quiet (by rw [hpc]; rfl) ?_
    simp [WGoodNext]
  | iterNew =>
    obtain ⟨h1, h2⟩ := hr .root _ (by rw [hpc]; rfl)
    have := wTickIterNew (O := .code) (weak := weak) x hpc h1 (h2 (by simp [Orders.code]))
    rwa [hpc] at this
  | iterNext lv out =>
    have hacq : ∀ loc o, c.pc.access .code = some (loc, o) → o ≠ .relaxed := by
      intro loc o h
      rw [hpc] at h
      simp only [PC.access] at h
      split at h
      · cases h
      · split at h
        · cases h
        · split at h
          · cases h
          · split at h
            · cases h; simp [Orders.code]
            · cases h
    have := wTickIterNext (O := .code) (weak := weak) x hpc hi hh (fun loc o h => (hr loc o h).1)
      (fun loc o h => (hr loc o h).2 (hacq loc o h))
    rwa [hpc] at this
  | trav st hash mode shift cur parent =>
    obtain ⟨h1, h2⟩ := hr cur _ (by rw [hpc]; rfl)
    have := wTickTrav (O := .code) (weak := weak) x hpc hi hh h1 (h2 (by simp [Orders.code]))
    rwa [hpc] at this
  | travCas st hash mode shift cur parent node new kind =>
    have := wTickTravCas (O := .code) (weak := weak) x hpc hi hh (hr cur _ (by rw [hpc]; rfl)).1
    rwa [hpc] at this
  | rem key shift cur levels =>
    obtain ⟨h1, h2⟩ := hr cur _ (by rw [hpc]; rfl)
    have := wTickRem (O := .code) (weak := weak) x hpc hi hh h1 (h2 (by simp [Orders.code]))
    rwa [hpc] at this
  | remCas key shift cur levels node new deleted =>
    have := wTickRemCas (O := .code) (weak := weak) x hpc hi hh (hr cur _ (by rw [hpc]; rfl)).1
    rwa [hpc] at this
  | count deleted ref parent child rest i cnt =>
    have := wTickCount (O := .code) (weak := weak) (w := w) x hpc hi hh
      (fun a ha => (hr (.slot a i) .relaxed (by rw [hpc]; simp [PC.access, ha, Orders.code])).1)
    rwa [hpc] at this
  | prune parent child i acc k =>
    have hch : ∃ a, child.ptr = some a := by
      simp only [WPCInv, hpc] at hi
      obtain ⟨-, a, cs, q, rfl, -⟩ := hi
      exact ⟨a, rfl⟩
    obtain ⟨a, ha⟩ := hch
    have hrr := fun a (ha : child.ptr = some a) =>
      hr (.slot a i) .acquire (by rw [hpc]; simp [PC.access, ha, Orders.code])
    have := wTickPrune (O := .code) (weak := weak) x hpc hi hh (fun a ha => (hrr a ha).1) ((hrr a ha).2 (by simp))
    rwa [hpc] at this
  | pruneCas parent child acc k =>
    have := wTickPruneCas (O := .code) (weak := weak) x hpc hi hh (hr parent _ (by rw [hpc]; rfl)).1
    rwa [hpc] at this

end

/-! ### Preservation -/

theorem WThreadInv.after {cfg : Config K P} {M : WMem P} {th : WThread K P} (h : WThreadInv cfg M th)
    (hn : M.nodes M.next = none) (new : Option (Node P)) (st : Option (Loc × Msg)) :
    WThreadInv cfg (M.after new st) th where
  view := h.view.after new st hn
  knows := h.knows.after new st hn
  ok := h.ok
  refs := by
    intro r hr
    obtain ⟨h1, l, h2⟩ := h.refs r hr
    exact ⟨h1, l, after_nodes hn h2⟩
  run := by
    intro c hc
    obtain ⟨h1, h2⟩ := h.run c hc
    exact ⟨h1.evo (after_evo new st hn), h2⟩

theorem startPC_inv {cfg : Config K P} {m : Mem P} {r : Req K P} (wf : ∀ o, r = .op o → o.WF cfg.key) :
    WPCInv cfg m ⟨0, r, startPC cfg r, 0, 0⟩ ∧ ∀ a, ¬ (startPC cfg r).Holds a := by
  cases r with
  | op o =>
    cases o with
    | get k => exact ⟨⟨0, by omega, by simp [LEVEL_BITS], rfl⟩, fun a h => by cases h⟩
    | insert p =>
      refine ⟨⟨0, rfl, ⟨.ins p, rfl, by omega, rfl, fun _ => rfl, by intro x hx; cases hx⟩⟩, ?_⟩
      rintro a (h | ⟨x, hx, -⟩)
      · cases h
      · cases hx
    | getOrInsert k f =>
      refine ⟨⟨0, rfl, ⟨.fut k f (wf _ rfl), rfl, by omega, rfl, fun _ => rfl, by intro x hx; cases hx⟩⟩, ?_⟩
      rintro a (h | ⟨x, hx, -⟩)
      · cases h
      · cases hx
    | remove k =>
      refine ⟨⟨rfl, rfl, 0, rfl, ⟨by omega, rfl, rfl, by intro x hx; cases hx⟩⟩, ?_⟩
      rintro a (h | ⟨x, hx, -⟩)
      · cases h
      · cases hx
  | isEmpty => exact ⟨trivial, fun a h => h⟩
  | iter => exact ⟨trivial, fun a h => h⟩

theorem WInv.init (cfg : Config K P) : WInv cfg (WState.init : WState K P) where
  mem := ⟨fun a h => absurd rfl h, (fun a c p h => by cases h), fun loc msg h => False.elim h⟩
  thr := fun t => ⟨ViewOK.empty _, ⟨fun a ha => ha.elim False.elim False.elim, fun a c p i b ha => ha.elim False.elim False.elim⟩, rfl,
    (fun r hr => by cases hr), (fun c hc => by cases hc)⟩

theorem WInv.tick {cfg : Config K P} {s : WState K P} (h : WInv cfg s) {t : Nat} {weak : Bool} {msg : Msg} {c : Call K P}
    (hr : (s.thr t).run = some c)
    (hl : ∀ loc o, c.pc.access .code = some (loc, o) →
        s.m.Readable loc msg ∨ ∃ a, loc.node = some a ∧ ¬ (s.thr t).Knows a) :
    WInv cfg (s.tick cfg .code t weak msg c) := by
  have ht := h.thr t
  obtain ⟨hi, hh⟩ := ht.run c hr
  have hM := h.mem
  have hn := hM.next_none
  -- the load
  have hrd : ∀ loc o, c.pc.access .code = some (loc, o) → s.m.Readable loc msg := by
    intro loc o ha
    rcases hl loc o ha with h1 | ⟨a, h1, h2⟩
    · exact h1
    · exact absurd (hh a ((access_loc hM hi ha).2 a h1)) h2
  have hmv : ∀ o', (c.pc.access .code).map Prod.snd = some o' → ViewOK s.m msg.view := by
    intro o' ho
    cases ha : c.pc.access .code with
    | none => rw [ha] at ho; cases ho
    | some x =>
      obtain ⟨loc, o⟩ := x
      obtain ⟨⟨q, hq⟩, -⟩ := access_loc hM hi ha
      exact (hM.readable hq (hrd loc o ha)).2.1
  have hacq : ViewOK s.m (acquired ((c.pc.access .code).map Prod.snd) msg) :=
    ⟨fun a ha => (hmv _ ha.1).alloc a ha.2, fun a c p i b ha hn' hp => ⟨ha.1, (hmv _ ha.1).closed a c p i b ha.2 hn' hp⟩⟩
  have hcon : ViewOK s.m (consumed ((c.pc.access .code).map Prod.snd) msg) :=
    ⟨fun a ha => (hmv _ ha.1).alloc a ha.2, fun a c p i b ha hn' hp => ⟨ha.1, (hmv _ ha.1).closed a c p i b ha.2 hn' hp⟩⟩
  unfold WState.tick
  simp only []
  generalize hv1 : (fun a => (s.thr t).view a ∨ acquired ((c.pc.access .code).map Prod.snd) msg a) = view1
  generalize hd1 : (fun a => (s.thr t).dep a ∨ consumed ((c.pc.access .code).map Prod.snd) msg a) = dep1
  unfold WState.exec
  dsimp only
  have hview1 : ViewOK s.m view1 := by rw [← hv1]; exact ht.view.union hacq
  have hKn : ViewOK s.m (fun a => view1 a ∨ dep1 a) := by
    have := (ht.knows.union hacq).union hcon
    have e : (fun a => view1 a ∨ dep1 a) = (fun a => ((s.thr t).Knows a ∨
        acquired ((c.pc.access .code).map Prod.snd) msg a) ∨ consumed ((c.pc.access .code).map Prod.snd) msg a) := by
      funext a
      rw [← hv1, ← hd1]
      simp only [WThread.Knows, eq_iff_iff]
      constructor
      · rintro ((h | h) | (h | h))
        · exact Or.inl (Or.inl (Or.inl h))
        · exact Or.inl (Or.inr h)
        · exact Or.inl (Or.inl (Or.inr h))
        · exact Or.inr h
      · rintro (((h | h) | h) | h)
        · exact Or.inl (Or.inl h)
        · exact Or.inr (Or.inl h)
        · exact Or.inl (Or.inr h)
        · exact Or.inr (Or.inr h)
    rw [e]; exact this
  have hup : ∀ a, (s.thr t).Knows a → view1 a ∨ dep1 a := by
    intro a ha
    rw [← hv1, ← hd1]
    exact ha.elim (fun h => Or.inl (Or.inl h)) (fun h => Or.inr (Or.inl h))
  have hup2 : ∀ loc o, c.pc.access .code = some (loc, o) → o ≠ .relaxed → ∀ a, msg.view a → view1 a ∨ dep1 a := by
    intro loc o ha ho a hv
    rw [← hv1, ← hd1, ha]
    cases o with
    | relaxed => exact absurd rfl ho
    | acquire => exact Or.inl (Or.inr ⟨rfl, hv⟩)
    | consume => exact Or.inr (Or.inr ⟨rfl, hv⟩)
  generalize hseen : s.m.seen (fun a => view1 a ∨ dep1 a) ((c.pc.access .code).map (fun x => (x.1, msg.word))) = seen
  have x : WCtx cfg s.m (fun a => view1 a ∨ dep1 a) seen := by rw [← hseen]; exact seen_ctx hM hKn _
  have htk : WTickOK cfg .code s.m (fun a => view1 a ∨ dep1 a) seen weak msg.word c (Contrie.tick cfg seen weak c.pc) := by
    refine wtick_ok x hi (fun a ha => hup a (hh a ha)) ?_
    intro loc o ha
    obtain ⟨⟨q, hq⟩, hnode⟩ := access_loc hM hi ha
    have hkl : ∀ a, loc.node = some a → (s.thr t).Knows a := fun a hla => hh a (hnode a hla)
    obtain ⟨g1, g2, g3, g4⟩ := hM.readable hq (hrd loc o ha)
    refine ⟨⟨?_, ?_, g3⟩, ?_⟩
    · rw [← hseen, ha]
      exact seen_read hq (fun a hla => hup a (hkl a hla)) _
    · intro q' hq'
      rw [hq'.unique hq]; exact g1
    · intro ho b hb
      rcases g4 b (fun a => view1 a ∨ dep1 a) hb hKn (fun a hla => hup a (hkl a hla)) with h1 | h1
      · exact h1
      · exact hup2 loc o ha ho b h1
  clear hup2
  obtain ⟨htn, htx, hts⟩ := htk
  generalize Contrie.tick cfg seen weak c.pc = r at *
  generalize newNode seen r.1 = new at *
  generalize hd2 : withNew dep1 new s.m.next = dep2
  simp only [WState.finish, hd2]
  generalize hst : (s.m.after new none).stored .code view1 dep2 weak msg.word c.pc r.1 = store
  have reach_edge : ∀ st b a c p i d, (s.m.after new none).Reach b a → (s.m.after new st).nodes a = some (.inner c p) →
      (c i).ptr = some d → (s.m.after new none).Reach b d := by
    intro st b a c p i d h1 h2 h3
    exact h1.trans (.step a c p i d d h2 h3 (.refl d))
  -- everything the thread knows afterwards
  have hK2 : ∀ st, ViewOK (s.m.after new st) (fun a => view1 a ∨ dep2 a) := by
    intro st
    have := hKn.add_new st hn htn
    have e : (fun a => view1 a ∨ dep2 a) = (fun a => (view1 a ∨ dep1 a) ∨ new.isSome = true ∧ a = s.m.next) := by
      funext a; rw [← hd2]; simp only [withNew, eq_iff_iff]; exact or_assoc.symm
    rw [e]; exact this
  -- restricted to what is reached from some nodes, it still is a possible knowledge
  have hK3 : ∀ st (S : Nat → Prop), ViewOK (s.m.after new st)
      (fun a => view1 a ∨ dep2 a ∧ ∃ b, S b ∧ (s.m.after new none).Reach b a) := by
    intro st S
    refine ⟨fun a ha => (hK2 st).alloc a (ha.imp id And.left), ?_⟩
    rintro a c p i b (ha | ⟨ha, b', hb', hr'⟩) hn' hp
    · exact Or.inl ((hview1.after new st hn).closed a c p i b ha hn' hp)
    · rcases (hK2 st).closed a c p i b (Or.inr ha) hn' hp with h1 | h1
      · exact Or.inl h1
      · exact Or.inr ⟨h1, b', hb', reach_edge st b' a c p i b hr' hn' hp⟩
  have hmem : WMemInv cfg (s.m.after new store) := by
    refine hM.after htn ?_
    intro loc msg' hs'
    rw [hs'] at hst
    simp only [WMem.stored] at hst
    split at hst
    · next loc' o rel e1 e2 =>
      cases hrl : r.1.read loc' with
      | none => rw [hrl] at hst; cases hst
      | some w' =>
        rw [hrl] at hst
        simp only [Option.map_some, Option.some.injEq, Prod.mk.injEq] at hst
        obtain ⟨rfl, rfl⟩ := hst
        have hrel : rel = true := by
          revert e2
          cases c.pc <;> simp only [PC.stores, Orders.code] <;> (try split) <;> intro h <;> cases h <;> rfl
        subst hrel
        obtain ⟨⟨q, g1, g2⟩, g3, g4⟩ := hts loc' o true w' e1 e2 hrl
        refine ⟨⟨q, g1.evo (after_evo new _ hn) (Nat.zero_le _), ?_⟩, ?_, ?_, g4⟩
        · exact g2
        · intro b hb
          refine ⟨rfl, ?_⟩
          rcases g3 b hb with (g3 | g3) | g3
          · exact Or.inl g3
          · exact Or.inr ⟨by rw [← hd2]; exact Or.inl g3, b, hb, Or.inl rfl, .refl b⟩
          · exact Or.inr ⟨by rw [← hd2]; exact Or.inr g3, b, hb, Or.inl rfl, .refl b⟩
        · have e : (s.m.after new none).released .code view1 dep2 true w' =
              (fun a => view1 a ∨ dep2 a ∧ ∃ b, w'.ptr = some b ∧ (s.m.after new none).Reach b a) := by
            funext a; simp [WMem.released, Orders.code]
          simp only [e]
          exact hK3 _ (fun b => w'.ptr = some b)
    · cases hst
  refine ⟨hmem, ?_⟩
  intro t'
  by_cases htt : t' = t
  · subst htt
    simp only [upd_same]
    have hknow : ∀ b, (view1 b ∨ dep2 b) → (r.2.Holds b ∨ b ∈ (s.thr t').refs) →
        view1 b ∨ dep2 b ∧ ∃ b', (r.2.Holds b' ∨ b' ∈ (s.thr t').refs) ∧ (s.m.after new none).Reach b' b := by
      rintro b (hb | hb) hs
      · exact Or.inl hb
      · exact Or.inr ⟨hb, b, hs, .refl b⟩
    have hin : ∀ b, view1 b ∨ dep1 b → view1 b ∨ dep2 b := by
      rintro b (hb | hb)
      · exact Or.inl hb
      · right; rw [← hd2]; exact Or.inl hb
    have hrefs : ∀ b ∈ (s.thr t').refs,
        (view1 b ∨ dep2 b ∧ ∃ b', (r.2.Holds b' ∨ b' ∈ (s.thr t').refs) ∧ (s.m.after new none).Reach b' b) ∧
        ∃ l, (s.m.after new store).nodes b = some (.data l) := by
      intro b hb
      obtain ⟨g1, l, g2⟩ := ht.refs b hb
      exact ⟨hknow b (hin b (hup b g1)) (Or.inr hb), l, after_nodes hn g2⟩
    have hknows := hK3 store (fun b => r.2.Holds b ∨ b ∈ (s.thr t').refs)
    have hview := hview1.after new store hn
    cases hr2 : r.2 with
    | fail f => rw [hr2] at htx; exact htx.elim
    | goto pc ran =>
      rw [hr2] at htx hknow hrefs hknows
      obtain ⟨g1, g2⟩ := htx
      refine ⟨hview, hknows, ht.ok, hrefs, ?_⟩
      intro c' hc'
      simp only [WThread.apply, Option.some.injEq] at hc'
      subst hc'
      exact ⟨g1.evo (after_evo new store hn), fun a ha => hknow a (hin a (g2 a ha)) (Or.inl ha)⟩
    | ret res refs =>
      rw [hr2] at htx hknow hrefs hknows
      refine ⟨hview, hknows, ht.ok, ?_, fun c' hc' => by cases hc'⟩
      intro b hb
      simp only [WThread.apply, List.mem_append] at hb
      rcases hb with hb | hb
      · rcases htx b hb with ⟨g1, l, g2⟩ | ⟨⟨l, g1⟩, g2⟩
        · exact ⟨hknow b (hin b g1) (Or.inl hb), l, after_nodes hn g2⟩
        · refine ⟨hknow b ?_ (Or.inl hb), l, ?_⟩
          · right; rw [← hd2]; exact Or.inr ⟨by rw [g1]; rfl, g2⟩
          · subst g2; simp [WMem.after, g1]
      · exact hrefs b hb
  · simp only [upd_other _ _ htt]
    exact (h.thr t').after hn new store

theorem WInv.step {cfg : Config K P} {s s' : WState K P} (h : WInv cfg s) (hs : WStep cfg .code s s') : WInv cfg s' := by
  cases hs with
  | call t r hr hf wf =>
    refine ⟨h.mem, fun t' => ?_⟩
    by_cases e : t' = t
    · subst e
      simp only [upd_same]
      have ht := h.thr t'
      obtain ⟨g1, g2⟩ := startPC_inv (m := s.m.ideal) wf
      refine ⟨ht.view, ht.knows, ht.ok, ht.refs, ?_⟩
      intro c hc
      cases hc
      exact ⟨g1, fun a ha => absurd ha (g2 a)⟩
    · simp only [upd_other _ _ e]; exact h.thr t'
  | tick t weak msg c hr hl => exact h.tick hr hl
  | abort t hf =>
    refine ⟨h.mem, fun t' => ?_⟩
    by_cases e : t' = t
    · subst e
      simp only [upd_same]
      have ht := h.thr t'
      refine ⟨ht.view, ?_, ht.ok, (fun r hr => by cases hr), (fun c hc => by cases hc)⟩
      exact ht.view.union (ViewOK.empty _)
    · simp only [upd_other _ _ e]; exact h.thr t'
  | sync t u =>
    refine ⟨h.mem, fun t' => ?_⟩
    by_cases e : t' = t
    · subst e
      simp only [upd_same]
      have ht := h.thr t'
      have hkn : ∀ a, (s.thr t').Knows a → ((s.thr t').view a ∨ (s.thr u).view a) ∨ (s.thr t').dep a :=
        fun a ha => ha.elim (fun h => Or.inl (Or.inl h)) Or.inr
      refine ⟨ht.view.union (h.thr u).view, ?_, ht.ok, ?_, ?_⟩
      · have := ht.knows.union (h.thr u).view
        have e2 : (fun a => ((s.thr t').view a ∨ (s.thr u).view a) ∨ (s.thr t').dep a) =
            (fun a => (s.thr t').Knows a ∨ (s.thr u).view a) := by
          funext a
          simp only [WThread.Knows, eq_iff_iff]
          exact or_right_comm
        show ViewOK s.m (fun a => ((s.thr t').view a ∨ (s.thr u).view a) ∨ (s.thr t').dep a)
        rw [e2]; exact this
      · intro r hr
        obtain ⟨g1, g2⟩ := ht.refs r hr
        exact ⟨hkn r g1, g2⟩
      · intro c hc
        obtain ⟨g1, g2⟩ := ht.run c hc
        exact ⟨g1, fun a ha => hkn a (g2 a ha)⟩
    · simp only [upd_other _ _ e]; exact h.thr t'

theorem WReachable.inv {cfg : Config K P} {s : WState K P} (h : WReachable cfg .code s) : WInv cfg s := by
  induction h with
  | init => exact WInv.init cfg
  | step s s' _ hs ih => exact ih.step hs

end Contrie
