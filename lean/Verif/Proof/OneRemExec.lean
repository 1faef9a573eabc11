import Verif.Proof.OneRemIns
import Verif.Proof.SerialExec
/-
Executions in which removals do not overlap with each other: the invariant holds.
-/
set_option linter.unusedSectionVars false
namespace Contrie
variable {K P : Type} [DecidableEq K]

/-- Is the request a removal? -/
def Req.isRemove : Req K P → Bool
  | .op (.remove _) => true
  | _ => false

/-- The key an insertion is about. -/
def Req.insKey (cfg : Config K P) : Req K P → Option K
  | .op (.insert p) => some (cfg.key p)
  | .op (.getOrInsert k _) => some k
  | _ => none

/-- Up to instant `n`, no two removals are ever in progress at the same time, and no update is abandoned half way
(by a panic of user code). Insertions (`insert`, `get_or_insert_with`), lookups, `is_empty` and iterations may run in parallel with each
other and with the removals. -/
structure Exec.RemovalsAlone {cfg : Config K P} (E : Exec cfg) (n : Nat) : Prop where
  alone : ∀ i, i ≤ n → ∀ t t' c c', ((E.st i).thr t).run = some c → ((E.st i).thr t').run = some c' →
    c.req.isRemove = true → c'.req.isRemove = true → t = t'
  finished : ∀ i, i < n → ∀ t c, E.lab i = .abort t → ((E.st i).thr t).run = some c → c.req.isUpdate = false

/-- The same from instant `s` on: between `s` and `n`, no two removals are in progress at the same time, and no update is abandoned. (Whatever was before `s`.) -/
structure Exec.RemovalsAloneSince {cfg : Config K P} (E : Exec cfg) (s n : Nat) : Prop where
  alone : ∀ i, s ≤ i → i ≤ n → ∀ t t' c c', ((E.st i).thr t).run = some c → ((E.st i).thr t').run = some c' →
    c.req.isRemove = true → c'.req.isRemove = true → t = t'
  finished : ∀ i, s ≤ i → i < n → ∀ t c, E.lab i = .abort t → ((E.st i).thr t).run = some c → c.req.isUpdate = false

theorem Exec.RemovalsAlone.since {cfg : Config K P} {E : Exec cfg} {n : Nat} (h : E.RemovalsAlone n) (s : Nat) : E.RemovalsAloneSince s n where
  alone := fun i _ hi => h.alone i hi
  finished := fun i _ hi => h.finished i hi

theorem isRemove_upd {r : Req K P} (h : r.isRemove = true) : r.isUpdate = true := by
  unfold Req.isRemove at h
  split at h
  · rfl
  · cases h

theorem isRemove_key {r : Req K P} (h : r.isRemove = true) : ∃ k, r = .op (.remove k) := by
  unfold Req.isRemove at h
  split at h
  · exact ⟨_, rfl⟩
  · cases h

theorem Exec.SerialUpdates.removalsAlone {cfg : Config K P} {E : Exec cfg} {n : Nat} (h : E.SerialUpdates n) : E.RemovalsAlone n where
  alone := fun i hi t t' c c' h1 h2 h3 h4 => h.alone i hi t t' c c' h1 h2 (isRemove_upd h3) (isRemove_upd h4)
  finished := h.finished

section
variable {cfg : Config K P} {A : Nat → AMap K P} {W : Nat → Option (LP K P)} {m m' : Mem P} {weak : Bool}
  {I : K → Prop} {R : Option (BitVec 64 × PC K P)}

theorem TravReq.insKey {req : Req K P} {mode : Mode} {st : TState K P} {calls : Nat}
    (h : TravReq cfg req mode st calls) : req.insKey cfg = some (st.key cfg) := by
  cases h with
  | ins => rfl
  | fut => rfl
  | made k f wf => simp only [Req.insKey, TState.key, wf]

/-- A step of the removal. -/
theorem remTick {c : Call K P} (x : Ctx cfg A m c.inv) (hi : PCInv cfg A m c) (hl : LinInv W m.clock c)
    (hW : W m.clock = lpOf cfg m weak c) {k : K} (hreq : c.req = .op (.remove k)) (ho : OInv cfg m I (some (cfg.hash k, c.pc))) :
    RemNext cfg (tick cfg m weak c.pc).1.bump I (cfg.hash k) (tick cfg m weak c.pc).2 ∧
    ∀ a, c.pc.on = some a → (tick cfg m weak c.pc).1.bump.retired a ≠ none ∨
      (∃ pc ran, (tick cfg m weak c.pc).2 = .goto pc ran ∧ pc.on = some a) ∨ ∃ f, (tick cfg m weak c.pc).2 = .fail f := by
  have hr := ho.r _ _ rfl
  have hno : ∀ {pc : PC K P}, pc.on = none → ∀ a, pc.on = some a → False := by
    intro pc h a h'; rw [h] at h'; cases h'
  cases hpc : c.pc with
  | get => rw [hpc] at hr; exact hr.elim
  | isEmpty => rw [hpc] at hr; exact hr.elim
  | iterNew => rw [hpc] at hr; exact hr.elim
  | iterNext => rw [hpc] at hr; exact hr.elim
  | trav => rw [hpc] at hr; exact hr.elim
  | travCas => rw [hpc] at hr; exact hr.elim
  | rem key shift cur levels =>
    have hk : key = k := by
      have h := hi
      simp only [PCInv, hpc] at h
      rw [hreq] at h
      have := h.1
      injection this with this; injection this with this; exact this.symm
    subst hk
    rw [← hpc]
    exact ⟨oneRem x hpc hi ho, fun a h => by rw [hpc] at h; cases h⟩
  | remCas key shift cur levels node new deleted =>
    have hk : key = k := by
      have h := hi
      simp only [PCInv, hpc] at h
      rw [hreq] at h
      have := h.1
      injection this with this; injection this with this; exact this.symm
    subst hk
    rw [← hpc]
    exact ⟨oneRemCas x hpc hi (tick_ok x hi hl hW) hW ho, fun a h => by rw [hpc] at h; cases h⟩
  | count =>
    rw [← hpc]
    exact ⟨oneCount x hpc hi ho, fun a h => by rw [hpc] at h; cases h⟩
  | prune parent child i acc kk =>
    cases kk with
    | trav => rw [hpc] at hr; exact hr.elim
    | rem => rw [hpc] at hr; exact hr.elim
    | clean deleted ref rest =>
      rw [← hpc]
      refine ⟨onePrune x hpc hi ho, ?_⟩
      intro a ha
      rw [hpc] at ha ⊢
      right
      simp only [tick, tickPrune]
      split
      · exact Or.inr ⟨_, rfl⟩
      · split
        · exact Or.inr ⟨_, rfl⟩
        · split
          · exact Or.inr ⟨_, rfl⟩
          · split
            · exact Or.inl ⟨_, _, rfl, ha⟩
            · split
              · exact Or.inr ⟨_, rfl⟩
              · exact Or.inl ⟨_, _, rfl, ha⟩
  | pruneCas parent child acc kk =>
    cases kk with
    | trav => rw [hpc] at hr; exact hr.elim
    | rem => rw [hpc] at hr; exact hr.elim
    | clean deleted ref rest =>
      rw [← hpc]
      obtain ⟨h1, h2⟩ := onePruneCas x hpc hi ho
      exact ⟨h1, fun a ha => Or.inl (h2 a ha)⟩

/-- A step of an insertion. -/
theorem insTick {c : Call K P} (x : Ctx cfg A m c.inv) (hi : PCInv cfg A m c) (hh : Helps m c.pc)
    {k : K} (hreq : c.req.insKey cfg = some k) (hI : I k) (ho : OInv cfg m I R) (hp : HelpPC m R c.pc) :
    InsNext cfg (tick cfg m weak c.pc).1.bump I R k (tick cfg m weak c.pc).2 := by
  have h := hi
  unfold PCInv at h
  cases hpc : c.pc with
  | get => simp only [hpc] at h; rw [h.1] at hreq; cases hreq
  | isEmpty => simp only [hpc] at h; rw [h.1] at hreq; cases hreq
  | iterNew => simp only [hpc] at h; rw [h.1] at hreq; cases hreq
  | iterNext => simp only [hpc] at h; rw [h.1] at hreq; cases hreq
  | rem => simp only [hpc] at h; rw [h.1] at hreq; cases hreq
  | remCas => simp only [hpc] at h; rw [h.1] at hreq; cases hreq
  | count => simp only [hpc] at h; obtain ⟨⟨k, e⟩, -⟩ := h; rw [e] at hreq; cases hreq
  | trav st hash mode shift cur parent =>
    simp only [hpc] at h
    obtain ⟨d, -, ht⟩ := h
    rw [ht.req.insKey] at hreq; cases hreq
    rw [← hpc]
    exact oneTrav x hpc hi hh ho
  | travCas st hash mode shift cur parent node new kind =>
    simp only [hpc] at h
    obtain ⟨d, -, ht, -⟩ := h
    rw [ht.req.insKey] at hreq; cases hreq
    rw [← hpc]
    exact oneTravCas x hpc hi hI ho
  | prune parent child i acc kk =>
    simp only [hpc] at h
    cases kk with
    | trav => rw [← hpc]; exact helpPrune x hpc hi ho hp
    | rem => rw [h.1.1] at hreq; cases hreq
    | clean => obtain ⟨⟨⟨⟨k, e⟩, -⟩, -⟩, -⟩ := h; rw [e] at hreq; cases hreq
  | pruneCas parent child acc kk =>
    simp only [hpc] at h
    cases kk with
    | trav => rw [← hpc]; exact helpPruneCas x hpc hi ho hp
    | rem => rw [h.1.1] at hreq; cases hreq
    | clean => obtain ⟨⟨⟨⟨k, e⟩, -⟩, -⟩, -⟩ := h; rw [e] at hreq; cases hreq

/-- Requests: reader, insertion or removal. -/
theorem Req.kinds (cfg : Config K P) (r : Req K P) : r.isUpdate = false ∧ r.isRemove = false ∧ r.insKey cfg = none ∨
    (∃ k, r.insKey cfg = some k ∧ r.isRemove = false) ∨ ∃ k, r = .op (.remove k) := by
  cases r with
  | isEmpty => exact Or.inl ⟨rfl, rfl, rfl⟩
  | iter => exact Or.inl ⟨rfl, rfl, rfl⟩
  | op o =>
    cases o with
    | get => exact Or.inl ⟨rfl, rfl, rfl⟩
    | insert p => exact Or.inr (Or.inl ⟨_, rfl, rfl⟩)
    | getOrInsert k f => exact Or.inr (Or.inl ⟨_, rfl, rfl⟩)
    | remove k => exact Or.inr (Or.inr ⟨k, rfl⟩)

theorem insKey_upd {r : Req K P} {k : K} (h : r.insKey cfg = some k) : r.isUpdate = true ∧ r.isRemove = false := by
  rcases Req.kinds cfg r with ⟨-, -, e⟩ | ⟨k', e1, e2⟩ | ⟨k', rfl⟩
  · rw [e] at h; cases h
  · refine ⟨?_, e2⟩
    cases r with
    | isEmpty => cases h
    | iter => cases h
    | op o => cases o <;> first | rfl | cases h
  · cases h

/-- Keys of the insertions in progress. -/
def State.ins (cfg : Config K P) (S : State K P) : K → Prop :=
  fun k => ∃ t c, (S.thr t).run = some c ∧ c.req.insKey cfg = some k

/-- `R` is the removal in progress (if any). -/
def State.RemIs (cfg : Config K P) (S : State K P) : Option (BitVec 64 × PC K P) → Prop
  | none => ∀ t c, (S.thr t).run = some c → c.req.isRemove = false
  | some (h, pc) => ∃ t c k, (S.thr t).run = some c ∧ c.req = .op (.remove k) ∧ h = cfg.hash k ∧ pc = c.pc

/-- The invariant of a state. -/
structure State.One (cfg : Config K P) (S : State K P) (R : Option (BitVec 64 × PC K P)) : Prop where
  is : S.RemIs cfg R
  inv : OInv cfg S.m (S.ins cfg) R
  help : ∀ t c k, (S.thr t).run = some c → c.req.insKey cfg = some k → HelpPC S.m R c.pc
end

namespace Exec
variable {cfg : Config K P} (E : Exec cfg)

theorem one_since {s n : Nat} (h0 : ∃ R, (E.st s).One cfg R) (hn : E.RemovalsAloneSince s n) : ∀ i, s ≤ i → i ≤ n → ∃ R, (E.st i).One cfg R := by
  intro i hsi
  induction i, hsi using Nat.le_induction with
  | base => exact fun _ => h0
  | succ i hsi ih =>
    intro hi
    obtain ⟨R, his, hinv, hhelp⟩ := ih (by omega)
    have hs := E.step i
    by_cases htick : ∃ t w, E.lab i = .tick t w
    · obtain ⟨t, w, hl⟩ := htick
      have hevo := (E.stepOK i).evo
      rw [hl] at hs
      obtain ⟨c, h1, h2, h3, h4⟩ := step_tick hs
      have hoth : ∀ u, u ≠ t → ((E.st (i + 1)).thr u).run = ((E.st i).thr u).run := by
        intro u hu
        exact step_other hs (by simp [Label.actor]; exact fun e => hu e.symm)
      have hback : ∀ u c', ((E.st (i + 1)).thr u).run = some c' → ∃ c0, ((E.st i).thr u).run = some c0 ∧ c0.req = c'.req := by
        intro u c' hc'
        rcases step_run hs hc' with ⟨c0, e1, e2, e3⟩ | ⟨e1, e2, e3⟩
        · exact ⟨c0, e1, e3⟩
        · cases e3
      have hnf : ∀ f, (tick cfg (E.st i).m w c.pc).2 ≠ .fail f := by
        intro f hres
        have := ((E.inv (i + 1)).thr t).noFail
        rw [h3, hres] at this
        cases this
      have hgo : ∀ pc ran, (tick cfg (E.st i).m w c.pc).2 = .goto pc ran → ((E.st (i + 1)).thr t).run =
          some { c with pc := pc, calls := c.calls + (if ran then 1 else 0), ticks := c.ticks + 1 } := by
        intro pc ran e; rw [h3, e]; rfl
      have hret : ∀ r refs, (tick cfg (E.st i).m w c.pc).2 = .ret r refs → ((E.st (i + 1)).thr t).run = none := by
        intro r refs e; rw [h3, e]; rfl
      have x := (E.inv i).ctx h1
      have hlin := (((E.inv i).thr t).run c h1).2.2.2
      have hW : E.W (E.st i).m.clock = lpOf cfg (E.st i).m w c := by rw [E.clock]; simp [W, lpStep, hl, h1]
      rcases Req.kinds cfg c.req with ⟨k1, k2, k3⟩ | ⟨k, k1, k2⟩ | ⟨k, k1⟩
      · -- a reader
        have hm : (E.st (i + 1)).m = (E.st i).m.bump := by rw [h2, tick_reader (E.run_pcinv h1) k1]
        have hback' : ∀ u c', ((E.st (i + 1)).thr u).run = some c' → u = t ∧ c'.req = c.req ∨ ((E.st i).thr u).run = some c' := by
          intro u c' hc'
          by_cases hu : u = t
          · subst hu
            obtain ⟨c0, e1, e2⟩ := hback u c' hc'
            rw [h1] at e1; cases e1
            exact Or.inl ⟨rfl, e2.symm⟩
          · rw [hoth u hu] at hc'; exact Or.inr hc'
        refine ⟨R, ?_, ?_, ?_⟩
        · cases R with
          | none =>
            intro u c' hc'
            rcases hback' u c' hc' with ⟨rfl, e⟩ | e
            · rw [e]; exact k2
            · exact his u c' e
          | some y =>
            obtain ⟨h, pc⟩ := y
            obtain ⟨u, c', k', e1, e2, e3, e4⟩ := his
            refine ⟨u, c', k', ?_, e2, e3, e4⟩
            rw [hoth u ?_]; exact e1
            intro e; subst e; rw [h1] at e1; cases e1; rw [e2] at k2; cases k2
        · rw [hm]
          refine hinv.bump.setI ?_
          rintro k ⟨u, c', e1, e2⟩
          refine Or.inl ⟨u, c', ?_, e2⟩
          rw [hoth u ?_]; exact e1
          intro e; subst e; rw [h1] at e1; cases e1; rw [e2] at k3; cases k3
        · intro u c' k hc' hk
          rcases hback' u c' hc' with ⟨rfl, e⟩ | e
          · rw [e, k3] at hk; cases hk
          · exact (hhelp u c' k e hk).evo hevo (fun h pc a g1 g2 => Or.inr ⟨h, pc, g1, g2⟩)
      · -- an insertion
        have hnext := insTick (weak := w) x (E.run_pcinv h1) (E.helps i t c h1) k1 ⟨t, c, h1, k1⟩ hinv (hhelp t c k h1 k1)
        rw [← h2] at hnext
        have hisn : (E.st (i + 1)).RemIs cfg R := by
          cases R with
          | none =>
            intro u c' hc'
            obtain ⟨c0, e1, e2⟩ := hback u c' hc'
            rw [← e2]; exact his u c0 e1
          | some y =>
            obtain ⟨h, pc⟩ := y
            obtain ⟨u, c', k', e1, e2, e3, e4⟩ := his
            refine ⟨u, c', k', ?_, e2, e3, e4⟩
            rw [hoth u ?_]; exact e1
            intro e; subst e; rw [h1] at e1; cases e1; rw [e2] at k2; cases k2
        have hhelp' : ∀ u c' k', u ≠ t → ((E.st (i + 1)).thr u).run = some c' → c'.req.insKey cfg = some k' →
            HelpPC (E.st (i + 1)).m R c'.pc := by
          intro u c' k' hu hc' hk'
          rw [hoth u hu] at hc'
          exact (hhelp u c' k' hc' hk').evo hevo (fun h pc a g1 g2 => Or.inr ⟨h, pc, g1, g2⟩)
        cases hres : (tick cfg (E.st i).m w c.pc).2 with
        | goto pc ran =>
          rw [hres] at hnext
          have hrun := hgo pc ran hres
          refine ⟨R, hisn, ?_, ?_⟩
          · refine hnext.1.setI ?_
            rintro k' ⟨u, c', e1, e2⟩
            by_cases hu : u = t
            · subst hu; rw [h1] at e1; cases e1
              exact Or.inl ⟨u, _, hrun, e2⟩
            · exact Or.inl ⟨u, c', by rw [hoth u hu]; exact e1, e2⟩
          · intro u c' k' hc' hk'
            by_cases hu : u = t
            · subst hu
              rw [hrun] at hc'; cases hc'
              exact hnext.2
            · exact hhelp' u c' k' hu hc' hk'
        | ret r refs =>
          rw [hres] at hnext
          have hrun := hret r refs hres
          refine ⟨R, hisn, ?_, ?_⟩
          · refine hnext.1.setI ?_
            rintro k' ⟨u, c', e1, e2⟩
            by_cases hu : u = t
            · subst hu; rw [h1] at e1; cases e1
              rw [k1] at e2; cases e2
              exact Or.inr hnext.2
            · exact Or.inl ⟨u, c', by rw [hoth u hu]; exact e1, e2⟩
          · intro u c' k' hc' hk'
            by_cases hu : u = t
            · subst hu; rw [hrun] at hc'; cases hc'
            · exact hhelp' u c' k' hu hc' hk'
        | fail f => exact absurd hres (hnf f)
      · -- the removal
        have hrem : c.req.isRemove = true := by rw [k1]; rfl
        have hR : R = some (cfg.hash k, c.pc) := by
          cases R with
          | none => have := his t c h1; rw [hrem] at this; cases this
          | some y =>
            obtain ⟨h, pc⟩ := y
            obtain ⟨u, c', k', e1, e2, e3, e4⟩ := his
            have := hn.alone i hsi (by omega) t u c c' h1 e1 hrem (by rw [e2]; rfl)
            subst this
            rw [h1] at e1; cases e1
            rw [k1] at e2; cases e2
            rw [e3, e4]
        subst hR
        obtain ⟨hnext, hon⟩ := remTick (W := E.W) (weak := w) x (E.run_pcinv h1) hlin hW k1 hinv
        rw [← h2] at hnext hon
        have hins : ∀ k', (E.st i).ins cfg k' → (E.st (i + 1)).ins cfg k' := by
          rintro k' ⟨u, c', e1, e2⟩
          refine ⟨u, c', ?_, e2⟩
          rw [hoth u ?_]; exact e1
          intro e; subst e; rw [h1] at e1; cases e1; rw [k1] at e2; cases e2
        have hhelp' : ∀ R', (∀ a, c.pc.on = some a → (E.st (i + 1)).m.retired a ≠ none ∨ ∃ h' pc', R' = some (h', pc') ∧ pc'.on = some a) →
            ∀ u c' k', ((E.st (i + 1)).thr u).run = some c' → c'.req.insKey cfg = some k' → HelpPC (E.st (i + 1)).m R' c'.pc := by
          intro R' hR' u c' k' hc' hk'
          have hu : u ≠ t := by
            intro e; subst e
            obtain ⟨c0, e1, e2⟩ := hback u c' hc'
            rw [h1] at e1; cases e1
            rw [← e2, k1] at hk'; cases hk'
          rw [hoth u hu] at hc'
          refine (hhelp u c' k' hc' hk').evo hevo ?_
          intro h pc a g1 g2
          cases g1
          exact hR' a g2
        cases hres : (tick cfg (E.st i).m w c.pc).2 with
        | goto pc ran =>
          rw [hres] at hnext
          have hrun := hgo pc ran hres
          refine ⟨some (cfg.hash k, pc), ⟨t, _, k, hrun, k1, rfl, rfl⟩, OInv.setI hnext (fun k' h => Or.inl (hins k' h)), ?_⟩
          refine hhelp' _ ?_
          intro a ha
          rcases hon a ha with e | ⟨pc', ran', e1, e2⟩ | ⟨f, e⟩
          · exact Or.inl e
          · rw [hres] at e1; cases e1
            exact Or.inr ⟨_, _, rfl, e2⟩
          · exact absurd e (hnf f)
        | ret r refs =>
          rw [hres] at hnext
          have hrun := hret r refs hres
          refine ⟨none, ?_, OInv.setI hnext (fun k' h => Or.inl (hins k' h)), ?_⟩
          · intro u c' hc'
            cases e : c'.req.isRemove with
            | false => rfl
            | true =>
              exfalso
              obtain ⟨c0, e1, e2⟩ := hback u c' hc'
              have := hn.alone i hsi (by omega) u t c0 c e1 h1 (by rw [e2]; exact e) hrem
              subst this
              rw [hrun] at hc'; cases hc'
          · refine hhelp' _ ?_
            intro a ha
            rcases hon a ha with e | ⟨pc', ran', e1, e2⟩ | ⟨f, e⟩
            · exact Or.inl e
            · rw [hres] at e1; cases e1
            · exact absurd e (hnf f)
        | fail f => exact absurd hres (hnf f)
    · have hq := step_quiet hs (fun t w e => htick ⟨t, w, e⟩)
      have hevo := (E.stepOK i).evo
      -- updates in progress stay so
      have hkeep : ∀ u c', ((E.st i).thr u).run = some c' → c'.req.isUpdate = true → ((E.st (i + 1)).thr u).run = some c' := by
        intro u c' hc' hup
        refine step_run_keep hs hc' (fun w h => htick ⟨u, w, h⟩) ?_
        intro e
        rw [hn.finished i hsi (by omega) u c' e hc'] at hup; cases hup
      have hback : ∀ u c', ((E.st (i + 1)).thr u).run = some c' → ((E.st i).thr u).run = some c' ∨
          ∃ r, E.lab i = .call u r ∧ c' = ⟨(E.st i).m.clock, r, startPC cfg r, 0, 0⟩ := by
        intro u c' hc'
        rcases step_run_full hs hc' with ⟨e1, -⟩ | ⟨c0, pc, ran, weak, e1, e2, -⟩ | ⟨r, e1, e2, -⟩
        · exact Or.inl e1
        · exact absurd ⟨u, weak, e2⟩ htick
        · exact Or.inr ⟨r, e1, e2⟩
      have hinv' : ∀ R', OInv cfg (E.st i).m ((E.st i).ins cfg) R' → OInv cfg (E.st (i + 1)).m ((E.st (i + 1)).ins cfg) R' := by
        intro R' h
        refine (h.same hq.1 hq.2.1 hq.2.2.2).setI ?_
        rintro k ⟨u, c', e1, e2⟩
        exact Or.inl ⟨u, c', hkeep u c' e1 (insKey_upd e2).1, e2⟩
      have hhelp' : ∀ R', (∀ h pc a, R = some (h, pc) → pc.on = some a → (E.st (i + 1)).m.retired a ≠ none ∨
            ∃ h' pc', R' = some (h', pc') ∧ pc'.on = some a) →
          ∀ u c' k', ((E.st (i + 1)).thr u).run = some c' → c'.req.insKey cfg = some k' → HelpPC (E.st (i + 1)).m R' c'.pc := by
        intro R' hR' u c' k' hc' hk'
        rcases hback u c' hc' with e | ⟨r, e1, rfl⟩
        · exact (hhelp u c' k' e hk').evo hevo hR'
        · cases r with
          | isEmpty => trivial
          | iter => trivial
          | op o => cases o <;> trivial
      by_cases hcall : ∃ t k, E.lab i = .call t (.op (.remove k))
      · obtain ⟨t, k, hl⟩ := hcall
        have hs' := hs
        rw [hl] at hs'
        obtain ⟨g1, -, -, -, g5⟩ := step_call hs'
        have hR : R = none := by
          cases R with
          | none => rfl
          | some y =>
            exfalso
            obtain ⟨h, pc⟩ := y
            obtain ⟨u, c', k', e1, e2, e3, e4⟩ := his
            have := hkeep u c' e1 (by rw [e2]; rfl)
            have := hn.alone (i + 1) (by omega) hi u t c' _ this g1 (by rw [e2]; rfl) rfl
            subst this
            rw [g5] at e1; cases e1
        subst hR
        refine ⟨some (cfg.hash k, .rem k 0 .root []), ⟨t, _, k, g1, rfl, rfl, rfl⟩, hinv' _ hinv.startR, hhelp' _ ?_⟩
        intro h pc a e; cases e
      · refine ⟨R, ?_, hinv' R hinv, hhelp' R (fun h pc a g1 g2 => Or.inr ⟨h, pc, g1, g2⟩)⟩
        cases R with
        | none =>
          intro u c' hc'
          rcases hback u c' hc' with e | ⟨r, e1, rfl⟩
          · exact his u c' e
          · cases h : r.isRemove with
            | false => rfl
            | true =>
              obtain ⟨k, rfl⟩ := isRemove_key h
              exact absurd ⟨u, k, e1⟩ hcall
        | some y =>
          obtain ⟨h, pc⟩ := y
          obtain ⟨u, c', k', e1, e2, e3, e4⟩ := his
          exact ⟨u, c', k', hkeep u c' e1 (by rw [e2]; rfl), e2, e3, e4⟩

theorem one_init : ∃ R, (E.st 0).One cfg R := by
  rw [E.init]
  refine ⟨none, ?_, ⟨⟨?_, ?_⟩, ?_⟩, ?_⟩
  · intro t c h; cases h
  · intro a c p h; cases h
  · intro a c p i h; cases h
  · intro h pc e; cases e
  · intro t c k h; cases h

theorem one {n : Nat} (hn : E.RemovalsAlone n) (i : Nat) (hi : i ≤ n) : ∃ R, (E.st i).One cfg R := E.one_since E.one_init (hn.since 0) i (Nat.zero_le _) hi

/-- When no update is in progress, everything is tidy. -/
theorem quiet_of_one {n : Nat} (h : ∃ R, (E.st n).One cfg R) (hq : E.NoUpdate n) : SInv cfg (E.st n).m noEx noCd := by
  obtain ⟨R, his, hinv, -⟩ := h
  cases R with
  | some y =>
    obtain ⟨h, pc⟩ := y
    obtain ⟨t, c, k, e1, e2, -⟩ := his
    have := hq t c e1
    rw [e2] at this; cases this
  | none =>
    refine hinv.s.change ?_ ?_
    · rintro a c p - - (e | ⟨k, ⟨t, c', e1, e2⟩, -⟩ | ⟨h, pc, e, -⟩)
      · exact Or.inl e
      · have := hq t c' e1
        rw [(insKey_upd e2).1] at this; cases this
      · cases e
    · rintro a i - ⟨h, pc, e, -⟩; cases e

theorem one_quiet {n : Nat} (hn : E.RemovalsAlone n) (hq : E.NoUpdate n) : SInv cfg (E.st n).m noEx noCd :=
  E.quiet_of_one (E.one hn n (Nat.le_refl _)) hq

/-- And conversely. -/
theorem one_of_quiet {n : Nat} (h : SInv cfg (E.st n).m noEx noCd) (hq : E.NoUpdate n) : ∃ R, (E.st n).One cfg R := by
  refine ⟨none, ?_, ⟨h.change (fun a c p _ _ e => e.elim Or.inl False.elim) (fun a i _ e => e.elim), fun h pc e => by cases e⟩, ?_⟩
  · intro t c hc
    have := hq t c hc
    cases e : c.req.isRemove with
    | false => rfl
    | true => rw [isRemove_upd e] at this; cases this
  · intro t c k hc hk
    have := hq t c hc
    rw [(insKey_upd hk).1] at this; cases this

/-- Tidy once, tidy for ever, as long as removals do not overlap. -/
theorem quiet_since {s n : Nat} (hsn : s ≤ n) (h : SInv cfg (E.st s).m noEx noCd) (hs : E.NoUpdate s) (hn : E.RemovalsAloneSince s n) (hq : E.NoUpdate n) :
    SInv cfg (E.st n).m noEx noCd :=
  E.quiet_of_one (E.one_since (E.one_of_quiet h hs) hn n hsn (Nat.le_refl _)) hq

end Exec
end Contrie
