import Verif.Proof.WeakOneOwn
/-
Cleaning up on weak memory: the induction.
-/
set_option linter.unusedSectionVars false
namespace Contrie
variable {K P : Type} [DecidableEq K]

namespace CExec
variable {cfg : Config K P} {E : CExec cfg}

/-- A condemned cell is what it is. -/
theorem cond_now {n τ : Nat} (H : Hist cfg E.A E.M n) (hτ : τ ≤ n) {ℓ : Loc} {p : List (Fin 16)} (hloc : LocAt (E.M n) 0 ℓ p) {w : Word}
    (hrd : (E.M τ).read ℓ = some w) (hroot : ℓ = .root → w.cond = false) (hcond : w.cond = true) : (E.M n).read ℓ = some w := by
  have hat := H.at_read hτ hloc hrd
  cases ℓ with
  | root => rw [hroot rfl] at hcond; cases hcond
  | slot a i =>
    obtain ⟨cs, q, g1, g2, g3⟩ := hat
    obtain ⟨cs', g4, g5⟩ := H.inner hτ (Nat.le_refl _) g1
    have : (E.M n).freed a = false := rfl
    simp only [Mem.read, Mem.deref, this, g4]
    rw [← g3] at hcond
    have := g5 i hcond
    simp [this, g3]

/-- A key seen by `get_or_insert` is in the map. -/
theorem Ordered.present {N : Nat} (ho : E.Ordered N) {n : Nat} (hN : n < N) (hn : n < E.len) {t : Nat} {c : Call K P} (hc : ((E.st n).thr t).run = some c)
    {k : K} {f : K → P} (hreq : c.req = .op (.getOrInsert k f)) {v : P} {σ : Nat} (hs : E.Saw t c.inv (n + 1) k (some v) σ) : E.A n k ≠ none := by
  obtain ⟨a1, a2, a3⟩ := CExec.run_ev (Nat.le_of_lt hn) hc
  have hσ := hs.lt
  have key : ∀ i, σ ≤ i → i ≤ n → E.A i k ≠ none := by
    intro i hi
    induction i, hi using Nat.le_induction with
    | base => intro _; rw [hs.val]; simp
    | succ i hi ih =>
      intro hin
      have ih := ih (by omega)
      cases hw : E.W i with
      | none => rw [E.A_none (n := n) (Nat.le_of_lt hn) (by omega) hw]; exact ih
      | some lp =>
        obtain ⟨t', weak', c', h1, h2, h3, h4, h5, h6, h7, h8⟩ := E.W_ok (by omega) hw
        have h7' := congrArg Prod.fst h7
        simp only at h7'
        rw [← h7']
        by_cases hk : lp.op.key cfg.key = k
        · cases hop : lp.op with
          | get k' => exact ih
          | insert p =>
            rw [hop] at hk
            simp only [Op.key] at hk
            simp [AMap.apply, AMap.set, hk]
          | getOrInsert k' f =>
            rw [hop] at hk
            simp only [Op.key] at hk
            subst hk
            simp only [AMap.apply]
            split
            · exact ih
            · simp [AMap.set]
          | remove k' =>
            exfalso
            rw [hop] at hk h6 h8
            simp only [Op.key] at hk h8
            subst hk
            have hp := Precedes.of_running (Nat.le_of_lt hn) hc rfl (y := lp.id) (by omega)
              (ho.goi c.inv lp.id k' f (by omega) (by omega) (by rw [← hreq]; exact a3) (E.ev_call (by omega) h6))
            obtain ⟨u, u', r, j, g1, g2, g3, g4⟩ := hp
            obtain ⟨rfl, -⟩ := g1.session h6
            rw [a2] at g3; injection g3 with g3 _; subst g3
            obtain ⟨b1, b2⟩ := E.hb g4 (by simp only; omega)
            simp only at b1 b2
            have hij : i ≤ j := by
              apply Classical.byContradiction
              intro hlt
              exact absurd h3 (g1.over (i := i) (by omega) (by omega) h2)
            have ht := h8.mono (fun ℓ => Nat.le_trans (E.V_mono t' (i := i + 1) (j := j + 1) (by omega) g1.1 ℓ) (b2 ℓ))
            have := hs.fresh _ ht
            omega
        · rw [apply_elsewhere hk]; exact ih
  exact key n (by omega) (Nat.le_refl n)

/-- The linearisation points of the call alone. -/
def soloW (E : CExec cfg) (n : Nat) (c : Call K P) (x : Option (LP K P)) : Nat → Option (LP K P) := fun τ =>
  if τ = n then x else (E.W τ).bind (fun lp => if lp.id = c.inv then some { lp with id := 0 } else none)

theorem soloW_lin {n : Nat} {c : Call K P} (h : LinInv E.W n c) (x : Option (LP K P)) : LinInv (soloW E n c x) n { c with inv := 0 } := by
  unfold LinInv at h ⊢
  simp only
  cases ht : c.pc.taken with
  | none =>
    simp only [ht] at h ⊢
    intro τ lp hτ hw
    exfalso
    have : τ ≠ n := by omega
    simp only [soloW, this, if_false] at hw
    cases hW : E.W τ with
    | none => rw [hW] at hw; cases hw
    | some lp0 =>
      rw [hW] at hw
      simp only [Option.bind_some, h τ lp0 hτ hW, if_false] at hw
      cases hw
  | some p =>
    simp only [ht] at h ⊢
    obtain ⟨τ, o, h1, h2, h3, h4⟩ := h
    refine ⟨τ, o, Nat.zero_le _, h2, h3, ?_⟩
    have : τ ≠ n := by omega
    simp only [soloW, this, if_false, h4, Option.bind_some, if_true]

/-- A step of an insertion. -/
theorem Ordered.ins_next {N : Nat} (ho : E.Ordered N) {n : Nat} (hN : n < N) (hn : n < E.len) {R : Option (BitVec 64 × PC K P)} (h1 : (E.T n).One cfg R)
    {t : Nat} {weak : Bool} {τ : Nat} {c : Call K P} (hc : ((E.st n).thr t).run = some c) {k : K} (hk : c.req.insKey cfg = some k)
    {nx : Next K P} (d : E.Did n t weak τ c nx) : InsNext cfg (E.M (n + 1)) ((E.T n).ins cfg) R k nx := by
  have hI := E.cinv (Nat.le_of_lt hn)
  have ci := (hI.sess t).run c hc
  have hp := E.pcinv_of (Nat.le_of_lt hn) hc (insKey_upd hk).1
  have x := E.ctx0 hI (by have := ci.lt; omega)
  have hh := E.helps (Nat.le_of_lt hn) t c hc
  have hhp := h1.help t c k hc hk
  have strong : InsNext cfg (tick cfg (E.M n) weak c.pc).1.bump ((E.T n).ins cfg) R k (tick cfg (E.M n) weak c.pc).2 :=
    insTick (c := { c with inv := 0 }) (weak := weak) x hp hh hk ⟨t, c, hc, hk⟩ h1.inv hhp
  cases d with
  | store ℓ o p w σ ha hτ hw hnx hm => rw [hnx, hm]; exact strong
  | silent ha hnx hm =>
    rw [hnx, hm]
    rw [tick_quiet cfg _ weak (by simp [PC.writes, ha])] at strong
    exact strong
  | load ℓ o p w mw σ ha hτ hw hnx hm hW hs hloc hl hmw hrd hv =>
    rw [hnx, hm]
    refine weakInsTick x hp hh hk h1.inv ha hs hw (cond_now hI.hist hτ hloc hrd hs.clean) ?_
    intro st hash shift parent hpc v hlv
    have hA := hI.hist.abs n (Nat.le_refl n)
    rw [← hA]
    simp only [PCInv, hpc] at hp
    obtain ⟨dd, -, ht⟩ := hp
    have hreq : ∃ f, c.req = .op (.getOrInsert k f) := by
      have := ht.req
      cases hreq : c.req with
      | isEmpty => rw [hreq] at hk; cases hk
      | iter => rw [hreq] at hk; cases hk
      | op o =>
        cases o with
        | get => rw [hreq] at hk; cases hk
        | remove => rw [hreq] at hk; cases hk
        | getOrInsert k' f => rw [hreq] at hk; cases hk; exact ⟨f, rfl⟩
        | insert p => simp only [hreq] at this; cases this
    obtain ⟨f, hreq⟩ := hreq
    have hkk : p <+: nibs (cfg.hash k) := by
      rw [hpc] at ha
      cases ha
      have e := LocAt.unique hloc ht.loc
      have hreq2 := ht.req
      have hh2 := ht.hashEq
      have aux : ∀ {r : Req K P} {mode : Mode} {st : TState K P} {q : Nat}, TravReq cfg r mode st q → r = .op (.getOrInsert k f) → st.key cfg = k := by
        intro r mode st q h e
        cases h with
        | ins p => cases e
        | fut k' f' wf => cases e; rfl
        | made k' f' wf => cases e; exact wf
      rw [e, hh2, aux hreq2 hreq]
      exact List.take_prefix _ _
    exact ho.present hN hn hc hreq (Saw.of_learnt E hI.hist hl hτ hkk hlv)

/-- A step of the removal. -/
theorem Ordered.rem_next {N : Nat} (ho : E.Ordered N) {n : Nat} (hN : n < N) (hn : n < E.len) {t : Nat} {weak : Bool} {τ : Nat} {c : Call K P}
    (hl : E.lab n = .tick t weak τ) (hc : ((E.st n).thr t).run = some c) {k : K} (hk : c.req = .op (.remove k)) {I : K → Prop}
    (hinv : OInv cfg (E.M n) I (some (cfg.hash k, c.pc))) (hown : ∀ i ℓ, i < n → E.Shrinks i ℓ → E.Owned n i ℓ)
    {nx : Next K P} (d : E.Did n t weak τ c nx) : RemNext cfg (E.M (n + 1)) I (cfg.hash k) nx ∧
      ∀ a, c.pc.on = some a → (E.M (n + 1)).retired a ≠ none ∨ (∃ pc ran, nx = .goto pc ran ∧ pc.on = some a) ∨ ∃ f, nx = .fail f := by
  have hI := E.cinv (Nat.le_of_lt hn)
  have ci := (hI.sess t).run c hc
  have hp := E.pcinv_of (Nat.le_of_lt hn) hc (by rw [hk]; rfl)
  have x := E.ctx0 hI (by have := ci.lt; omega)
  have hclk := hI.hist.clock n (Nat.le_refl n)
  have strong := remTick (c := { c with inv := 0 }) (W := soloW E n c (lpOf cfg (E.M n) weak { c with inv := 0 })) (weak := weak) x hp
    (by rw [hclk]; exact soloW_lin ci.lin _) (by rw [hclk]; simp [soloW]) hk hinv
  cases d with
  | store ℓ o p w σ ha hτ hw hnx hm => rw [hnx, hm]; exact strong
  | silent ha hnx hm =>
    rw [hnx, hm]
    rw [tick_quiet cfg _ weak (by simp [PC.writes, ha])] at strong
    exact strong
  | load ℓ o p w mw σ ha hτ hw hnx hm hW hs hloc hl' hmw hrd hv =>
    rw [hnx, hm]
    have hrp := hinv.r _ _ rfl
    obtain ⟨-, hVτ⟩ := E.looks hn (E.base (Nat.le_of_lt hn)) hl hc ha
    have := weakRemTick (c := c) x hp hk hinv ha hs hw (cond_now hI.hist hτ hloc hrd hs.clean) ?_ ?_
    · exact ⟨this.1, fun a ha => .inl (this.2 a ha)⟩
    · intro hon hne
      have hsp : c.pc.spot = none := by
        unfold PC.on at hon
        unfold PC.spot
        split at hon
        · next e => rw [e] at hrp; obtain ⟨-, -, a, cs, rfl, -⟩ := hrp; cases hon
        · next e => rw [e] at hrp; obtain ⟨-, -, a, cs, rfl, -⟩ := hrp; cases hon
        · next h1 h2 =>
          split
          · next e => exact absurd e (h1 _ _ _ _ _ _ _)
          · next e => exact absurd e (h2 _ _ _ _ _ _)
          · rfl
      obtain ⟨w2, g1, g2⟩ := E.seen_now (Nat.le_of_lt hn) hτ hrd (by
        intro i hi hsh
        have := ho.knows (Nat.le_of_lt hN) (Nat.le_of_lt hn) hc (by rw [hk]; rfl) hsp (hown i ℓ hi hsh)
        omega)
      exact ⟨w2, g1, g2 hne⟩
    · intro child acc deleted ref rest hpc hne a hca
      rw [hpc] at hrp
      obtain ⟨-, -, a', cs, rfl, hm', hat, -⟩ := hrp
      cases hca
      intro hret
      have h2 := hat hret
      have hr2 : (E.M n).read ℓ = some ⟨some a, false, false⟩ := by
        cases ℓ with
        | root => obtain ⟨-, e⟩ := h2; simp [Mem.read, e]
        | slot b j =>
          obtain ⟨c2, p2, e1, -, e3⟩ := h2
          have : (E.M n).freed b = false := rfl
          simp [Mem.read, Mem.deref, this, e1, e3]
      have := spot_fresh hn hl hc ha hloc (a := a) (by rw [hpc]; rfl) hrd hne (Nat.le_refl n) hr2
      omega

/-- One step. -/
theorem Ordered.one_step {N : Nat} (ho : E.Ordered N) {n : Nat} (hN : n < N) (hn : n < E.len)
    (h : ∃ R, (E.T n).One cfg R) (hown : ∀ i ℓ, i < n → E.Shrinks i ℓ → E.Owned n i ℓ) : ∃ R, (E.T (n + 1)).One cfg R := by
  obtain ⟨R, hone⟩ := h
  obtain ⟨his, hinv, hhelp⟩ := hone
  have hI := E.cinv (Nat.le_of_lt hn)
  have hs := E.step n hn
  have hevo : Evo (E.M n) (E.M (n + 1)) := (E.cinv (n := n + 1) hn).hist.evo n (by omega)
  by_cases htick : ∃ t w τ, E.lab n = .tick t w τ
  · obtain ⟨t, weak, τ, hl⟩ := htick
    cases hc : ((E.st n).thr t).run with
    | none => rw [hl] at hs; simp only [cstep, hc] at hs; cases hs
    | some c =>
    have d := hI.did E hn hl hc
    have hoth : ∀ u, u ≠ t → ((E.st (n + 1)).thr u).run = ((E.st n).thr u).run := by
      intro u hu
      cases hc' : ((E.st n).thr u).run with
      | some c' =>
        refine cstep_run_keep hs hc' ?_ ?_
        · intro w τ' e; rw [hl] at e; cases e; exact hu rfl
        · intro e; rw [hl] at e; cases e
      | none =>
        cases hc2 : ((E.st (n + 1)).thr u).run with
        | none => rfl
        | some c2 =>
          rcases cstep_run_full hs hc2 with ⟨e, -⟩ | ⟨c0, pc, ran, w, τ', e, -⟩ | ⟨r, e, -⟩
          · rw [hc'] at e; cases e
          · rw [hc'] at e; cases e
          · rw [hl] at e; cases e
    have hafter := tick_after hn hl hc
    have hback : ∀ u c', ((E.T (n + 1)).thr u).run = some c' → u = t ∧ c'.req = c.req ∨ u ≠ t ∧ ((E.T n).thr u).run = some c' := by
      intro u c' hc'
      have hc' : ((E.st (n + 1)).thr u).run = some c' := hc'
      by_cases hu : u = t
      · subst hu
        rcases hafter with ⟨pc, ran, -, e⟩ | ⟨r, refs, -, e⟩
        · rw [e] at hc'; cases hc'; exact .inl ⟨rfl, rfl⟩
        · rw [e] at hc'; cases hc'
      · rw [hoth u hu] at hc'; exact .inr ⟨hu, hc'⟩
    have hfwd : ∀ u c', u ≠ t → ((E.T n).thr u).run = some c' → ((E.T (n + 1)).thr u).run = some c' := by
      intro u c' hu hc'
      have hc' : ((E.st n).thr u).run = some c' := hc'
      show ((E.st (n + 1)).thr u).run = some c'
      rw [hoth u hu]; exact hc'
    rcases Req.kinds cfg c.req with ⟨k1, k2, k3⟩ | ⟨k, k1, k2⟩ | ⟨k, k1⟩
    · -- a reader
      have hm : E.M (n + 1) = (E.M n).bump := by
        cases d with
        | load ℓ' o p w' mw σ ha hτ hw hnx hm => exact hm
        | silent ha hnx hm => exact hm
        | store ℓ o p w σ ha hτ hw hnx hm =>
          exfalso
          have ci := (hI.sess t).run c hc
          have hp : PCInv cfg E.A (E.M n) { c with inv := 0 } := by
            refine PCOK.inv (E := E) ci.pc ?_
            intro lv out e
            rw [e] at hw
            simp only [PC.writes] at hw
            split at hw
            · cases hw
            · split at hw <;> cases hw
          have := writes_update (c := { c with inv := 0 }) hp hw
          simp only [k1] at this
          cases this
      refine ⟨R, ?_, ?_, ?_⟩
      · cases R with
        | none =>
          intro u c' hc'
          rcases hback u c' hc' with ⟨rfl, e⟩ | ⟨-, e⟩
          · rw [e]; exact k2
          · exact his u c' e
        | some y =>
          obtain ⟨h, pc⟩ := y
          obtain ⟨u, c', k', e1, e2, e3, e4⟩ := his
          refine ⟨u, c', k', hfwd u c' ?_ e1, e2, e3, e4⟩
          intro e; subst e
          have e1 : ((E.st n).thr u).run = some c' := e1
          rw [hc] at e1; cases e1; rw [e2] at k2; cases k2
      · show OInv cfg (E.M (n + 1)) _ R
        rw [hm]
        refine (OInv.bump hinv).setI ?_
        rintro k ⟨u, c', e1, e2⟩
        refine Or.inl ⟨u, c', hfwd u c' ?_ e1, e2⟩
        intro e; subst e
        have e1 : ((E.st n).thr u).run = some c' := e1
        rw [hc] at e1; cases e1; rw [e2] at k3; cases k3
      · intro u c' k hc' hk
        rcases hback u c' hc' with ⟨rfl, e⟩ | ⟨-, e⟩
        · rw [e, k3] at hk; cases hk
        · exact (hhelp u c' k e hk).evo hevo (fun h pc a g1 g2 => Or.inr ⟨h, pc, g1, g2⟩)
    · -- an insertion
      have hnext := ho.ins_next hN hn ⟨his, hinv, hhelp⟩ hc k1 d
      have hisn : (E.T (n + 1)).RemIs cfg R := by
        cases R with
        | none =>
          intro u c' hc'
          rcases hback u c' hc' with ⟨rfl, e⟩ | ⟨-, e⟩
          · rw [e]; exact k2
          · exact his u c' e
        | some y =>
          obtain ⟨h, pc⟩ := y
          obtain ⟨u, c', k', e1, e2, e3, e4⟩ := his
          refine ⟨u, c', k', hfwd u c' ?_ e1, e2, e3, e4⟩
          intro e; subst e
          have e1 : ((E.st n).thr u).run = some c' := e1
          rw [hc] at e1; cases e1; rw [e2] at k2; cases k2
      have hhelp' : ∀ u c' k', u ≠ t → ((E.T n).thr u).run = some c' → c'.req.insKey cfg = some k' → HelpPC (E.M (n + 1)) R c'.pc := by
        intro u c' k' hu hc' hk'
        exact (hhelp u c' k' hc' hk').evo hevo (fun h pc a g1 g2 => Or.inr ⟨h, pc, g1, g2⟩)
      rcases hafter with ⟨pc, ran, hres, hrun⟩ | ⟨r, refs, hres, hrun⟩
      · rw [hres] at hnext
        refine ⟨R, hisn, ?_, ?_⟩
        · refine OInv.setI hnext.1 ?_
          rintro k' ⟨u, c', e1, e2⟩
          by_cases hu : u = t
          · subst hu
            have e1 : ((E.st n).thr u).run = some c' := e1
            rw [hc] at e1; cases e1
            exact Or.inl ⟨u, _, hrun, e2⟩
          · exact Or.inl ⟨u, c', hfwd u c' hu e1, e2⟩
        · intro u c' k' hc' hk'
          rcases hback u c' hc' with ⟨rfl, -⟩ | ⟨hu, e⟩
          · have hc' : ((E.st (n + 1)).thr u).run = some c' := hc'
            rw [hrun] at hc'; cases hc'
            exact hnext.2
          · exact hhelp' u c' k' hu e hk'
      · rw [hres] at hnext
        refine ⟨R, hisn, ?_, ?_⟩
        · refine OInv.setI hnext.1 ?_
          rintro k' ⟨u, c', e1, e2⟩
          by_cases hu : u = t
          · subst hu
            have e1 : ((E.st n).thr u).run = some c' := e1
            rw [hc] at e1; cases e1
            rw [k1] at e2; cases e2
            exact Or.inr hnext.2
          · exact Or.inl ⟨u, c', hfwd u c' hu e1, e2⟩
        · intro u c' k' hc' hk'
          rcases hback u c' hc' with ⟨rfl, -⟩ | ⟨hu, e⟩
          · have hc' : ((E.st (n + 1)).thr u).run = some c' := hc'
            rw [hrun] at hc'; cases hc'
          · exact hhelp' u c' k' hu e hk'
    · -- the removal
      have hrem : c.req.isRemove = true := by rw [k1]; rfl
      have hR : R = some (cfg.hash k, c.pc) := by
        cases R with
        | none => have := his t c hc; rw [hrem] at this; cases this
        | some y =>
          obtain ⟨h, pc⟩ := y
          obtain ⟨u, c', k', e1, e2, e3, e4⟩ := his
          have e1 : ((E.st n).thr u).run = some c' := e1
          have := ho.alone (Nat.le_of_lt hN) (Nat.le_of_lt hn) hc e1 hrem (by rw [e2]; rfl)
          subst this
          rw [hc] at e1; cases e1
          rw [k1] at e2; cases e2
          rw [e3, e4]
      subst hR
      obtain ⟨hnext, hon⟩ := ho.rem_next hN hn hl hc k1 hinv hown d
      have hins : ∀ k', (E.T n).ins cfg k' → (E.T (n + 1)).ins cfg k' := by
        rintro k' ⟨u, c', e1, e2⟩
        refine ⟨u, c', hfwd u c' ?_ e1, e2⟩
        intro e; subst e
        have e1 : ((E.st n).thr u).run = some c' := e1
        rw [hc] at e1; cases e1; rw [k1] at e2; cases e2
      have hhelp' : ∀ R', (∀ a, c.pc.on = some a → (E.M (n + 1)).retired a ≠ none ∨ ∃ h' pc', R' = some (h', pc') ∧ pc'.on = some a) →
          ∀ u c' k', ((E.T (n + 1)).thr u).run = some c' → c'.req.insKey cfg = some k' → HelpPC (E.M (n + 1)) R' c'.pc := by
        intro R' hR' u c' k' hc' hk'
        rcases hback u c' hc' with ⟨rfl, e⟩ | ⟨hu, e⟩
        · rw [e, k1] at hk'; cases hk'
        · refine (hhelp u c' k' e hk').evo hevo ?_
          intro h pc a g1 g2
          cases g1
          exact hR' a g2
      rcases hafter with ⟨pc, ran, hres, hrun⟩ | ⟨r, refs, hres, hrun⟩
      · rw [hres] at hnext hon
        refine ⟨some (cfg.hash k, pc), ⟨t, _, k, hrun, k1, rfl, rfl⟩, OInv.setI hnext (fun k' h => Or.inl (hins k' h)), ?_⟩
        refine hhelp' _ ?_
        intro a ha
        rcases hon a ha with e | ⟨pc', ran', e1, e2⟩ | ⟨f, e⟩
        · exact Or.inl e
        · cases e1
          exact Or.inr ⟨_, _, rfl, e2⟩
        · cases e
      · rw [hres] at hnext hon
        refine ⟨none, ?_, OInv.setI hnext (fun k' h => Or.inl (hins k' h)), ?_⟩
        · intro u c' hc'
          rcases hback u c' hc' with ⟨rfl, e⟩ | ⟨hu, e⟩
          · have hc' : ((E.st (n + 1)).thr u).run = some c' := hc'
            rw [hrun] at hc'; cases hc'
          · cases e' : c'.req.isRemove with
            | false => rfl
            | true => exact absurd (ho.alone (Nat.le_of_lt hN) (Nat.le_of_lt hn) e hc e' hrem) hu
        · refine hhelp' _ ?_
          intro a ha
          rcases hon a ha with e | ⟨pc', ran', e1, e2⟩ | ⟨f, e⟩
          · exact Or.inl e
          · cases e1
          · cases e
  · have hm : E.M (n + 1) = (E.M n).bump := by
      have plain : (E.st (n + 1)).m.thaw = (E.st n).m.thaw.bump → E.M (n + 1) = (E.M n).bump := fun e => e
      apply plain
      cases hl : E.lab n with
      | tick t w τ => exact absurd ⟨t, w, τ, hl⟩ htick
      | pin t =>
        rw [hl] at hs
        simp only [cstep] at hs
        split at hs
        · simp only [Option.some.injEq, Prod.mk.injEq] at hs; rw [← hs.1]; rfl
        · cases hs
      | unpin t =>
        rw [hl] at hs
        simp only [cstep] at hs
        split at hs
        · simp only [Option.some.injEq, Prod.mk.injEq] at hs; rw [← hs.1]; rfl
        · cases hs
      | call t r =>
        rw [hl] at hs
        simp only [cstep] at hs
        split at hs
        · simp only [Option.some.injEq, Prod.mk.injEq] at hs; rw [← hs.1]; rfl
        · cases hs
      | abort t =>
        rw [hl] at hs
        simp only [cstep] at hs
        split at hs
        · cases hs
        · simp only [Option.some.injEq, Prod.mk.injEq] at hs; rw [← hs.1]; rfl
      | sync t t' τ =>
        rw [hl] at hs
        simp only [cstep, Option.some.injEq, Prod.mk.injEq] at hs
        rw [← hs.1]; rfl
      | free a =>
        rw [hl] at hs
        simp only [cstep, Option.some.injEq, Prod.mk.injEq] at hs
        rw [← hs.1]; rfl
      | idle =>
        rw [hl] at hs
        simp only [cstep, Option.some.injEq, Prod.mk.injEq] at hs
        rw [← hs.1]; rfl
    -- updates in progress stay so
    have hkeep : ∀ u c', ((E.T n).thr u).run = some c' → c'.req.isUpdate = true → ((E.T (n + 1)).thr u).run = some c' := by
      intro u c' hc' hup
      refine cstep_run_keep hs hc' (fun w τ h => htick ⟨u, w, τ, h⟩) ?_
      intro e
      rw [ho.ab n u c' hN e hc'] at hup; cases hup
    have hback : ∀ u c', ((E.T (n + 1)).thr u).run = some c' → ((E.T n).thr u).run = some c' ∨
        ∃ r, E.lab n = .call u r ∧ c' = ⟨(E.st n).m.clock, r, startPC cfg r, 0, 0⟩ ∧ ((E.st n).thr u).run = none := by
      intro u c' hc'
      rcases cstep_run_full hs hc' with ⟨e1, -⟩ | ⟨c0, pc, ran, weak, τ, e1, e2, -⟩ | ⟨r, e1, e2, e3⟩
      · exact Or.inl e1
      · exact absurd ⟨u, weak, τ, e2⟩ htick
      · exact Or.inr ⟨r, e1, e2, e3⟩
    have hinv' : ∀ R', OInv cfg (E.M n) ((E.T n).ins cfg) R' → OInv cfg (E.M (n + 1)) ((E.T (n + 1)).ins cfg) R' := by
      intro R' h
      rw [hm]
      refine h.bump.setI ?_
      rintro k ⟨u, c', e1, e2⟩
      exact Or.inl ⟨u, c', hkeep u c' e1 (insKey_upd e2).1, e2⟩
    have hhelp' : ∀ R', (∀ h pc a, R = some (h, pc) → pc.on = some a → (E.M (n + 1)).retired a ≠ none ∨
          ∃ h' pc', R' = some (h', pc') ∧ pc'.on = some a) →
        ∀ u c' k', ((E.T (n + 1)).thr u).run = some c' → c'.req.insKey cfg = some k' → HelpPC (E.M (n + 1)) R' c'.pc := by
      intro R' hR' u c' k' hc' hk'
      rcases hback u c' hc' with e | ⟨r, e1, rfl, -⟩
      · exact (hhelp u c' k' e hk').evo hevo hR'
      · cases r with
        | isEmpty => trivial
        | iter => trivial
        | op o => cases o <;> trivial
    by_cases hcall : ∃ t k c', E.lab n = .call t (.op (.remove k)) ∧ ((E.st (n + 1)).thr t).run = some c' ∧ c' = ⟨(E.st n).m.clock, .op (.remove k), .rem k 0 .root [], 0, 0⟩ ∧
        ((E.st n).thr t).run = none
    · obtain ⟨t, k, c', hl, g1, rfl, g5⟩ := hcall
      have hR : R = none := by
        cases R with
        | none => rfl
        | some y =>
          exfalso
          obtain ⟨h, pc⟩ := y
          obtain ⟨u, c', k', e1, e2, e3, e4⟩ := his
          have e1' := hkeep u c' e1 (by rw [e2]; rfl)
          have := ho.alone (n := n + 1) hN hn e1' g1 (by rw [e2]; rfl) rfl
          subst this
          have e1 : ((E.st n).thr u).run = some c' := e1
          rw [g5] at e1; cases e1
      subst hR
      refine ⟨some (cfg.hash k, .rem k 0 .root []), ⟨t, _, k, g1, rfl, rfl, rfl⟩, hinv' _ (OInv.startR hinv), hhelp' _ ?_⟩
      intro h pc a e; cases e
    · refine ⟨R, ?_, hinv' R hinv, hhelp' R (fun h pc a g1 g2 => Or.inr ⟨h, pc, g1, g2⟩)⟩
      cases R with
      | none =>
        intro u c' hc'
        rcases hback u c' hc' with e | ⟨r, e1, e2, e3⟩
        · exact his u c' e
        · cases h : c'.req.isRemove with
          | false => rfl
          | true =>
            subst e2
            obtain ⟨k, rfl⟩ := isRemove_key h
            exact absurd ⟨u, k, _, e1, hc', rfl, e3⟩ hcall
      | some y =>
        obtain ⟨h, pc⟩ := y
        obtain ⟨u, c', k', e1, e2, e3, e4⟩ := his
        exact ⟨u, c', k', hkeep u c' e1 (by rw [e2]; rfl), e2, e3, e4⟩

/-- The invariant holds at all times. -/
theorem Ordered.one {N : Nat} (ho : E.Ordered N) (hN : N ≤ E.len) : ∀ n, n ≤ N → (∃ R, (E.T n).One cfg R) ∧ ∀ i ℓ, i < n → E.Shrinks i ℓ → E.Owned n i ℓ := by
  intro n
  induction n with
  | zero =>
    intro _
    refine ⟨⟨none, ?_, ⟨⟨?_, ?_⟩, ?_⟩, ?_⟩, fun i ℓ h => by omega⟩
    · intro t c h
      have h : ((E.st 0).thr t).run = some c := h
      rw [E.init] at h; cases h
    · intro a c p h
      have h : (E.st 0).m.mem a = _ := h
      rw [E.init] at h; cases h
    · intro a c p i h
      have h : (E.st 0).m.mem a = _ := h
      rw [E.init] at h; cases h
    · intro h pc e; cases e
    · intro t c k h
      have h : ((E.st 0).thr t).run = some c := h
      rw [E.init] at h; cases h
  | succ n ih =>
    intro hn
    obtain ⟨h1, h2⟩ := ih (by omega)
    refine ⟨ho.one_step (by omega) (by omega) h1 h2, ?_⟩
    obtain ⟨R, h1⟩ := h1
    exact ho.own_step (by omega) (by omega) h1 h2

/-- When no update is in progress, everything is tidy. -/
theorem Ordered.quiet {n : Nat} (ho : E.Ordered n) (hn : n ≤ E.len) (hq : ∀ t c, ((E.st n).thr t).run = some c → c.req.isUpdate = false) :
    SInv cfg (E.M n) noEx noCd := by
  obtain ⟨R, his, hinv, -⟩ := (ho.one hn n (Nat.le_refl n)).1
  cases R with
  | some y =>
    obtain ⟨h, pc⟩ := y
    obtain ⟨t, c, k, e1, e2, -⟩ := his
    have := hq t c e1
    rw [e2] at this; cases this
  | none =>
    refine SInv.change hinv.s ?_ ?_
    · rintro a c p - - (e | ⟨k, ⟨t, c', e1, e2⟩, -⟩ | ⟨h, pc, e, -⟩)
      · exact Or.inl e
      · have := hq t c' e1
        rw [(insKey_upd e2).1] at this; cases this
      · cases e
    · rintro a i - ⟨h, pc, e, -⟩; cases e
end CExec
end Contrie
