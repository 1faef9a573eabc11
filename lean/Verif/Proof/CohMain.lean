import Verif.Proof.CohInv
/-
The coherent machine preserves its invariant.
-/
set_option linter.unusedSectionVars false
namespace Contrie
variable {K P : Type} [DecidableEq K]

section
variable {cfg : Config K P} {A : Nat → AMap K P} {m : Mem P} {ℓ : Loc} {c : Call K P} {weak : Bool}

/-- The location of an update is on the path of its key. -/
theorem lp_path (hi : PCInv cfg A m { c with inv := 0 }) {lp : LP K P} (hl : lpOf cfg m weak c = some lp) {o : LoadOrd}
    (ha : c.pc.access .code = some (ℓ, o)) : ∃ q, LocAt m 0 ℓ q ∧ q <+: nibs (cfg.hash (lp.op.key cfg.key)) := by
  have hreq := (lpOf_id hl).2
  cases hpc : c.pc with
  | travCas st hash mode shift cur parent node new kind =>
    rw [hpc] at ha; cases ha
    simp only [PCInv, hpc] at hi
    obtain ⟨d, -, ht, -⟩ := hi
    refine ⟨_, ht.loc, ?_⟩
    have hk : st.key cfg = lp.op.key cfg.key := by
      have h1 := ht.req
      rw [hreq] at h1
      generalize hr : (Req.op lp.op : Req K P) = req at h1
      generalize ({ c with inv := 0 } : Call K P).calls = calls at h1
      cases h1 with
      | ins p => injection hr with e; rw [e]; rfl
      | fut k f wf => injection hr with e; rw [e]; rfl
      | made k f wf => injection hr with e; rw [e]; exact wf
    rw [ht.hashEq, hk]
    exact pre_prefix _ _
  | remCas key shift cur levels node new deleted =>
    rw [hpc] at ha; cases ha
    simp only [PCInv, hpc] at hi
    obtain ⟨h1, -, d, a, items, -, ht, -⟩ := hi
    rw [hreq] at h1
    injection h1 with h1
    refine ⟨_, ht.loc, ?_⟩
    rw [h1]
    exact pre_prefix _ _
  | _ => simp only [lpOf, hpc] at hl; split at hl <;> cases hl

theorem abs_bump (m : Mem P) : m.bump.abs cfg = m.abs cfg := by
  have : ∀ (ns : List (Fin 16)) (k : K) (w : Word), m.bump.look cfg k w ns = m.look cfg k w ns := by
    intro ns
    induction ns with
    | nil => intro k w; rfl
    | cons i ns ih =>
      intro k w
      simp only [Mem.look]
      have h1 : m.bump.leafVal cfg k w = m.leafVal cfg k w := rfl
      have h2 : m.bump.cellsOf w = m.cellsOf w := rfl
      rw [h1, h2]
      split
      · rfl
      · split
        · rfl
        · exact ih k _
  funext k
  exact this _ k _

theorem startPC_loc {r : Req K P} (h : (startPC cfg r).HasLoc ℓ) : ℓ = .root := by
  cases r with
  | op o =>
    cases o with
    | get k => exact h
    | insert p => rcases h with h | ⟨x, h, -⟩ <;> first | exact h | cases h
    | getOrInsert k f => rcases h with h | ⟨x, h, -⟩ <;> first | exact h | cases h
    | remove k => rcases h with h | ⟨x, h, -⟩ <;> first | exact h | cases h
  | isEmpty => cases h
  | iter => cases h

theorem startPC_holds {r : Req K P} {a : Nat} (h : (startPC cfg r).Holds a) : False := by
  cases r with
  | op o =>
    cases o with
    | get k => cases h
    | insert p => rcases h with h | ⟨x, h, -⟩ <;> cases h
    | getOrInsert k f => rcases h with h | ⟨x, h, -⟩ <;> cases h
    | remove k => rcases h with h | ⟨x, h, -⟩ <;> cases h
  | isEmpty => cases h
  | iter => cases h
end

namespace CExec
variable {cfg : Config K P} (E : CExec cfg)

theorem CallInv.keep {n t : Nat} {c : Call K P} (h : E.CallInv n t c) (hn : n < E.len) (he : Evo (E.M n) (E.M (n + 1)))
    (hpin : ((E.st (n + 1)).thr t).pin = ((E.st n).thr t).pin) (hW : ∀ lp, E.W n = some lp → lp.id ≠ c.inv) :
    E.CallInv (n + 1) t c where
  pin := by rw [hpin]; exact h.pin
  lt := by have := h.lt; omega
  lab := h.lab
  pc := by
    have := h.pc
    unfold PCOK at this ⊢
    split at this
    · next hpc =>
      obtain ⟨h1, h2, qs, h3⟩ := this
      refine ⟨h1, h2, qs, h3.evo he ?_⟩
      rintro k v ⟨σ, hs⟩
      exact ⟨σ, hs.mono E (Nat.le_succ _) hn⟩
    · exact this.evo he (Nat.zero_le _)
  locs := by
    intro ℓ hℓ
    obtain ⟨p, hp⟩ := h.locs ℓ hℓ
    exact ⟨p, hp.mono (E.V_mono t (Nat.le_succ _) hn) (Nat.le_succ _)⟩
  holds := fun a ha => (h.holds a ha).mono (Nat.le_succ _)
  lin := h.lin.next hW

theorem SessInv.keep {n t : Nat} (h : E.SessInv n t) (hn : n < E.len) (he : Evo (E.M n) (E.M (n + 1)))
    (hpin : ((E.st (n + 1)).thr t).pin = ((E.st n).thr t).pin) (hrefs : ((E.st (n + 1)).thr t).refs = ((E.st n).thr t).refs)
    (hrun : ((E.st (n + 1)).thr t).run = ((E.st n).thr t).run)
    (hfail : ((E.st (n + 1)).thr t).failed = ((E.st n).thr t).failed)
    (hW : ∀ c, ((E.st n).thr t).run = some c → ∀ lp, E.W n = some lp → lp.id ≠ c.inv) : E.SessInv (n + 1) t where
  noFail := by rw [hfail]; exact h.noFail
  pinlt := by intro p hp; rw [hpin] at hp; have := h.pinlt p hp; omega
  run := by
    intro c hc
    rw [hrun] at hc
    exact (h.run c hc).keep E hn he hpin (hW c hc)
  refs := by
    intro a ha
    rw [hrefs] at ha
    obtain ⟨p, h1, h2⟩ := h.refs a ha
    exact ⟨p, by rw [hpin]; exact h1, h2.mono (Nat.le_succ _)⟩

/-! ### Steps of calls -/

/-- What is true after a step of the call. -/
def NextOK (n t : Nat) (c : Call K P) : Next K P → Prop
  | .goto pc ran =>
    E.PCOK (n + 1) t { c with pc := pc, calls := c.calls + (if ran then 1 else 0), ticks := c.ticks + 1 } ∧
    LinInv E.W (n + 1) { c with pc := pc, calls := c.calls + (if ran then 1 else 0), ticks := c.ticks + 1 }
  | .ret r refs => E.OutOK n t c r refs ∧ ∀ a ∈ refs, (E.M (n + 1)).mem a ≠ none
  | .fail _ => False

variable {E}

section
variable {n t : Nat} {weak : Bool} {τ : Nat} {c : Call K P} {nx : Next K P}

/-- The value loaded. -/
theorem Did.learnt (d : E.Did n t weak τ c nx) : ∃ mx, nx = (tick cfg mx weak c.pc).2 ∧
    (c.pc.writes mx weak = true → mx = E.M n) ∧
    ∀ w, Loads mx c.pc w → ∃ p ℓ τ' σ, τ' ≤ n ∧ Learnt E.M n (E.V t c.inv) (E.V t (n + 1)) p ℓ w τ' σ := by
  cases d with
  | store ℓ o p w σ ha hτ hw hnx hm hv hW hread hch hl =>
    refine ⟨_, hnx, fun _ => rfl, ?_⟩
    rintro w' ⟨ℓ', o', h1, h2⟩
    rw [ha] at h1; cases h1
    rw [hread] at h2; cases h2
    exact ⟨p, ℓ, n, σ, Nat.le_refl _, hl⟩
  | load ℓ o p w mw σ ha hτ hw hnx hm hW hs hloc hl hmw hrd =>
    refine ⟨_, hnx, ?_, ?_⟩
    · intro h; rw [hw] at h; cases h
    rintro w' ⟨ℓ', o', h1, h2⟩
    rw [ha] at h1; cases h1
    rw [hs.read] at h2; cases h2
    exact ⟨p, ℓ, τ, σ, hτ, hl⟩
  | silent ha hnx hm hW =>
    refine ⟨_, hnx, fun _ => rfl, ?_⟩
    rintro w' ⟨ℓ', o', h1, h2⟩
    rw [ha] at h1; cases h1

theorem Did.locs (d : E.Did n t weak τ c nx) (ci : E.CallInv n t c) (hn : n < E.len) {pc : PC K P} {ran : Bool}
    (hg : nx = .goto pc ran) {ℓ : Loc} (hl : pc.HasLoc ℓ) :
    ∃ p, Reached E.M (n + 1) (E.V t c.inv) (E.V t (n + 1)) p ℓ := by
  obtain ⟨mx, h1, -, h2⟩ := d.learnt
  rw [hg] at h1
  have hlt := ci.lt
  rcases tick_locs cfg mx weak c.pc h1.symm hl with rfl | h3 | ⟨w, a, i, h3, h4, h5, rfl⟩
  · exact ⟨[], Reached.root (E.V_mono t (by omega) hn)⟩
  · obtain ⟨p, hp⟩ := ci.locs ℓ h3
    exact ⟨p, hp.mono (E.V_mono t (Nat.le_succ _) hn) (Nat.le_succ _)⟩
  · obtain ⟨p, ℓ, τ', σ, -, h6⟩ := h2 w h3
    exact ⟨_, (h6.down a i h4 h5).mono (fun _ => Nat.le_refl _) (Nat.le_succ _)⟩

theorem Did.holds (d : E.Did n t weak τ c nx) (ci : E.CallInv n t c) (H : Hist cfg E.A E.M n) {pc : PC K P} {ran : Bool}
    (hg : nx = .goto pc ran) {a : Nat} (hl : pc.Holds a) : SeenLive cfg E.M (n + 1) (E.V t c.inv) a := by
  obtain ⟨mx, h1, -, h2⟩ := d.learnt
  rw [hg] at h1
  rcases tick_holds cfg mx weak c.pc h1.symm hl with h3 | ⟨w, h3, h4⟩
  · exact (ci.holds a h3).mono (Nat.le_succ _)
  · obtain ⟨p, ℓ, τ', σ, h5, h6⟩ := h2 w h3
    exact (h6.seen H h5 h4).mono (Nat.le_succ _)

theorem Did.refs (d : E.Did n t weak τ c nx) (ci : E.CallInv n t c) (H : Hist cfg E.A E.M (n + 1)) (hn : n < E.len)
    {r : Res P} {refs : List Nat}
    (hg : nx = .ret r refs) (hm : ∀ a ∈ refs, (E.M (n + 1)).mem a ≠ none) {a : Nat} (ha : a ∈ refs) :
    SeenLive cfg E.M (n + 1) (E.V t c.inv) a := by
  obtain ⟨mx, h1, hmx, h2⟩ := d.learnt
  rw [hg] at h1
  rcases tick_refs cfg mx weak c.pc h1.symm ha with h3 | ⟨w, h3, h4⟩ | ⟨rfl, h3⟩
  · exact (ci.holds a h3).mono (Nat.le_succ _)
  · obtain ⟨p, ℓ, τ', σ, h5, h6⟩ := h2 w h3
    exact (h6.seen (H.mono (Nat.le_succ _)) h5 h4).mono (Nat.le_succ _)
  · have e := hmx h3
    subst e
    have hfr := (H.inv n (by omega)).fresh _ (Nat.le_refl (E.M n).next)
    have hb := H.born n (by omega) _ hfr
    cases hnd : (E.M (n + 1)).mem (E.M n).next with
    | none => exact absurd hnd (hm _ ha)
    | some nd =>
      refine ⟨n + 1, nd, Nat.le_refl _, hnd, hb, ?_⟩
      have hVle : ∀ ℓ, E.V t c.inv ℓ ≤ n + 1 := by
        intro ℓ
        have h1 := ci.lt
        have := E.V_le (n := c.inv) (by omega) t ℓ
        omega
      intro τ0 ho
      cases nd with
      | inner cs p => exact Trail.le hVle ho
      | data l => obtain ⟨x, -, h⟩ := ho; exact h.le hVle

theorem PCOK.inv (h : E.PCOK n t c) (hp : ∀ lv out, c.pc ≠ .iterNext lv out) :
    PCInv cfg E.A (E.M n) { c with inv := 0 } := by
  unfold PCOK at h
  split at h
  · next e => exact absurd e (hp _ _)
  · exact h

theorem pcok_of (h : PCInv cfg E.A (E.M n) { c with inv := 0 }) (hp : ∀ lv out, c.pc ≠ .iterNext lv out) : E.PCOK n t c := by
  unfold PCOK
  split
  · next e => exact absurd e (hp _ _)
  · exact h

theorem lin_taken {p : P} (h : LinInv E.W n c) (ht : c.pc.taken = some p) :
    ∃ i o, i < n ∧ c.req = .op o ∧ E.W i = some ⟨c.inv, o, .opt (some p)⟩ := by
  simp only [LinInv, ht] at h
  obtain ⟨i, o, -, h2, h3, h4⟩ := h
  exact ⟨i, o, h2, h3, h4⟩

theorem lin_none (h : LinInv E.W n c) (ht : c.pc.taken = none) (hW : E.W n = none) : NotYet E.W (n + 1) c.inv := by
  simp only [LinInv, ht] at h
  intro i lp hi hlp
  by_cases e : i = n
  · subst e; rw [hW] at hlp; cases hlp
  · exact h i lp (by omega) hlp

theorem lin_goto (h : LinInv E.W n c) (hW : E.W n = none) {pc : PC K P} (ht : pc.taken = c.pc.taken) (calls ticks : Nat) :
    LinInv E.W (n + 1) { c with pc := pc, calls := calls, ticks := ticks } := by
  simp only [LinInv] at h ⊢
  rw [ht]
  cases hk : c.pc.taken with
  | none => exact lin_none (by simpa [LinInv, hk] using h) hk hW
  | some p =>
    rw [hk] at h
    obtain ⟨i, o, h1, h2, h3⟩ := h
    exact ⟨i, o, h1, by omega, h3⟩

/-- Everything about a step of a call. -/
structure StepC (n t : Nat) (weak : Bool) (c : Call K P) (nx : Next K P) : Prop where
  hist : Hist cfg E.A E.M (n + 1)
  obit : ∀ a, (E.M n).retired a = none → (E.M (n + 1)).retired a ≠ none →
    ∃ nd, (E.M n).mem a = some nd ∧ Obit cfg E.M (E.V t (n + 1)) nd (n + 1)
  keep : E.W n = none → E.A (n + 1) = E.A n
  upd : ∀ lp, E.W n = some lp → lp.id = c.inv ∧ c.req = .op lp.op ∧ c.pc.taken = none ∧
    (E.A n).apply cfg.key lp.op = (E.A (n + 1), lp.ret) ∧
    Trail E.M (E.V t (n + 1)) [] (nibs (cfg.hash (lp.op.key cfg.key))) .root (n + 1)
  next : E.NextOK n t c nx

/-- Iterator states, from the outcome of a step. -/
theorem next_iter {out : List P} (ci : E.CallInv n t c) (hreq : c.req = .iter) (hcalls : c.calls = 0)
    (he : Evo (E.M n) (E.M (n + 1))) (hW : E.W n = none) (htk : c.pc.taken = none)
    (h : QIter cfg (E.M n) (fun k v => ∃ σ, E.Saw t c.inv (n + 1) k v σ) out nx) : E.NextOK n t c nx := by
  cases nx with
  | fail f => exact h
  | ret r refs =>
    obtain ⟨rfl, rfl, h1⟩ := h
    refine ⟨?_, by simp⟩
    simp only [OutOK, hreq]
    refine ⟨out, rfl, ?_⟩
    intro k
    obtain ⟨v, ⟨σ, hs⟩, hv⟩ := h1 k
    exact ⟨v, σ, hs, hv⟩
  | goto pc ran =>
    cases pc with
    | iterNext lv' out' =>
      obtain ⟨rfl, qs', h1⟩ := h
      refine ⟨⟨hreq, by simpa using hcalls, qs', h1.evo he (fun _ _ h => h)⟩, ?_⟩
      exact lin_goto ci.lin hW (by rw [htk]; rfl) _ _
    | _ => exact h.elim

theorem Did.step (d : E.Did n t weak τ c nx) (h : E.CInv n) (ci : E.CallInv n t c) (hn : n < E.len) :
    StepC (E := E) n t weak c nx := by
  have H := h.hist
  have hinv := H.inv n (Nat.le_refl _)
  have hlt := ci.lt
  cases d with
  | store ℓ o p w σ ha hτ hw hnx hm hv hW hread hch hl =>
    have hit : ∀ lv out, c.pc ≠ .iterNext lv out := by
      intro lv out e
      rw [e] at hw
      simp only [PC.writes] at hw
      split at hw
      · cases hw
      · split at hw <;> cases hw
    have hpc := ci.pc.inv hit
    have x : Ctx cfg E.A (E.M n) 0 := by
      refine ⟨hinv, ?_, ?_, fun a _ => rfl⟩
      · rw [H.clock n (Nat.le_refl _)]; rfl
      · rw [H.clock n (Nat.le_refl _)]; omega
    obtain ⟨t1, t2, t3, t4⟩ := wTick x hpc hw
    have hst := tick_stored (c := { c with inv := 0 }) x hpc ha hw
    have hnz : lpOf cfg (E.M n) weak c ≠ none → lpOf cfg (E.M n) weak { c with inv := 0 } ≠ none := by
      intro h
      rw [lpOf_zero]
      cases hlp : lpOf cfg (E.M n) weak c with
      | none => exact absurd hlp h
      | some lp => simp
    have hm' : E.M (n + 1) = (tick cfg (E.M n) weak c.pc).1.bump := hm
    have hst' : Stored cfg (E.M n) (E.M (n + 1)) ℓ (lpOf cfg (E.M n) weak { c with inv := 0 } ≠ none) := by
      rw [hm']; exact hst
    have he : Evo (E.M n) (E.M (n + 1)) := by rw [hm']; exact t2
    have H1 : Hist cfg E.A E.M (n + 1) := hist_step H rfl (by rw [hm']; exact t1) he hst'.still hst'.born
    have hVV : ∀ ℓ, E.V t n ℓ ≤ E.V t (n + 1) ℓ := E.V_mono t (Nat.le_succ _) hn
    have hch1 := hch.mono hVV
    have hlocp : LocAt (E.M n) 0 ℓ p := hch.locAt H (E.V_le (Nat.le_of_lt hn) t)
    have hA1 : E.A (n + 1) = (tick cfg (E.M n) weak c.pc).1.abs cfg := by
      show (E.M (n + 1)).abs cfg = _
      rw [hm', abs_bump]
    refine ⟨H1, ?_, ?_, ?_, ?_⟩
    · intro a h1 h2
      obtain ⟨q, w', nd, h3, h4, h5, h6⟩ := hst'.gone a h1 h2
      have := h3.unique hlocp
      subst this
      refine ⟨nd, h5, ?_⟩
      rcases h6 with ⟨cs, rfl⟩ | ⟨h6, l, rfl, h7⟩
      · have := hch1.trail (.stop q ℓ (n + 1) w' (by omega) h4)
        simpa [Obit] using this
      · cases l with
        | nil => exact absurd rfl h7.ne
        | cons y l =>
          obtain ⟨ns, hns⟩ := h7.pre y (by simp)
          refine ⟨y, by simp, ?_⟩
          rw [← hns]
          exact hch1.trail (.leaf q ns ℓ (n + 1) w' (by omega) h4 h6)
    · intro h1
      rw [hW] at h1
      rw [h1] at t3
      rw [hA1]; exact t3
    · intro lp h1
      rw [hW] at h1
      rw [h1] at t3
      obtain ⟨h2, h3⟩ := lpOf_id h1
      refine ⟨h2, h3, ?_, ?_, ?_⟩
      · cases ht : c.pc.taken with
        | none => rfl
        | some p => rw [taken_lp ht] at h1; cases h1
      · rw [hA1]; exact t3
      · obtain ⟨q, w', h4, h5, h6⟩ := hst'.leaf (hnz (by rw [h1]; simp))
        have := h4.unique hlocp
        subst this
        obtain ⟨q', h7, h8⟩ := lp_path hpc h1 ha
        have := h7.unique h4
        subst this
        obtain ⟨ns, hns⟩ := h8
        rw [← hns]
        exact hch1.trail (.leaf _ ns ℓ (n + 1) w' (by omega) h5 h6)
    · rw [← hm'] at t4
      subst hnx
      generalize hg : (tick cfg (E.M n) weak c.pc).2 = nx at t4 ⊢
      cases nx with
      | fail f => exact t4
      | goto pc ran =>
        obtain ⟨h1, h2⟩ := t4
        refine ⟨pcok_of h1 ?_, ?_⟩
        · intro lv out e
          have e' : pc = .iterNext lv out := e
          subst e'
          obtain ⟨o, ho⟩ := writes_req hpc hw
          have : c.req = .iter := h1.1
          rw [show c.req = .op o from ho] at this
          cases this
        · rcases h2 with ⟨h3, h4⟩ | ⟨o', p', h3, h4, h5⟩
          · exact lin_goto ci.lin (by rw [hW]; exact h3) h4 _ _
          · simp only [LinInv, h5]
            exact ⟨n, o', by omega, by omega, h4, by rw [hW]; exact h3⟩
      | ret r refs =>
        obtain ⟨o', ret, h1, rfl, h2, h3, h4, h5⟩ := t4
        refine ⟨?_, h3⟩
        simp only [OutOK, h1]
        refine ⟨ret, rfl, Or.inl ?_, h2, h4⟩
        rcases h5 with ⟨p', h6, rfl⟩ | h6
        · obtain ⟨i, o2, h7, h8, h9⟩ := lin_taken ci.lin h6
          rw [h1] at h8; cases h8
          exact ⟨i, by omega, h9⟩
        · exact ⟨n, Nat.le_refl _, by rw [hW]; exact h6⟩
  | load ℓ o p w mw σ ha hτ hw hnx hm hW hs hloc hl hmw hrd =>
    have he : Evo (E.M n) (E.M (n + 1)) := by rw [hm]; exact Evo.bump _
    have H1 : Hist cfg E.A E.M (n + 1) := hist_bump H rfl hm
    have hret : ∀ a, (E.M (n + 1)).retired a = (E.M n).retired a := by intro a; rw [hm]; rfl
    have hsaw : ∀ {k v}, p <+: nibs (cfg.hash k) → (E.M n).leafVal cfg k w = some v → E.Saw t c.inv (n + 1) k v σ :=
      fun hk hv => Saw.of_learnt E H hl hτ hk hv
    refine ⟨H1, ?_, ?_, ?_, ?_⟩
    · intro a h1 h2; rw [hret] at h2; exact absurd h1 h2
    · intro _; show (E.M (n + 1)).abs cfg = _; rw [hm, abs_bump]; rfl
    · intro lp h1; rw [hW] at h1; cases h1
    · by_cases hie : c.pc = .isEmpty
      · have hpc := ci.pc.inv (by intro lv out e; rw [hie] at e; cases e)
        simp only [PCInv, hie] at hpc
        rw [hie] at ha; cases ha
        have hp : p = [] := hloc
        subst hp
        have : nx = .ret (.bool w.ptr.isNone) [] := by
          rw [hnx, hie]
          have : mw.root = w := by simpa [Mem.read] using hs.read
          simp [tick, this]
        rw [this]
        refine ⟨?_, by simp⟩
        simp only [OutOK, hpc.1]
        refine ⟨_, rfl, ?_⟩
        intro hb
        have hnone : w.ptr = none := by simpa using hb
        exact ⟨σ, by have := hl.le; omega, fun k => hsaw List.nil_prefix (leafVal_null hnone)⟩
      · by_cases hin : c.pc = .iterNew
        · have hpc := ci.pc.inv (by intro lv out e; rw [hin] at e; cases e)
          simp only [PCInv, hin] at hpc
          rw [hin] at ha; cases ha
          have hp : p = [] := hloc
          subst hp
          have : nx = .goto (.iterNext [(w, 0)] []) false := by
            rw [hnx, hin]
            have : mw.root = w := by simpa [Mem.read] using hs.read
            simp [tick, tickIterNew, this]
          rw [this]
          refine next_iter (out := []) ci hpc.1 hpc.2 he hW (by rw [hin]; rfl) ⟨rfl, _, CIter.start hinv (hs.ok _ hloc) ?_⟩
          intro k v hv
          exact ⟨σ, hsaw List.nil_prefix hv⟩
        · by_cases hit : ∃ lv out, c.pc = .iterNext lv out
          · obtain ⟨lv, out, hit⟩ := hit
            have hpc := ci.pc
            simp only [PCOK, hit] at hpc
            obtain ⟨h1, h2, qs, h3⟩ := hpc
            have hnx' : nx = tickIterNext mw lv out := by rw [hnx, hit]; rfl
            rw [hnx']
            refine next_iter (out := out) ci h1 h2 he hW (by rw [hit]; rfl) ?_
            refine qTickIterNext (qs := qs) hinv (h3.mono ?_) (fun _ => rfl) hs.load ?_
            · rintro k v ⟨σ', hs'⟩
              exact ⟨σ', hs'.mono E (Nat.le_succ _) hn⟩
            · intro ℓ' o' ha'
              rw [← hit, ha] at ha'; cases ha'
              refine ⟨w, hs.read, hs.ok, ?_⟩
              intro q k v hq hk hv
              have := hq.unique hloc
              subst this
              exact ⟨σ, hsaw hk hv⟩
          · have hit' : ∀ lv out, c.pc ≠ .iterNext lv out := fun lv out e => hit ⟨lv, out, e⟩
            have hpc := ci.pc.inv hit'
            have hq := qTick (c := { c with inv := 0 }) hinv rfl hpc ha hs hw hie hin hit'
            have hnx' : nx = (tick cfg mw weak ({ c with inv := 0 } : Call K P).pc).2 := hnx
            rw [← hnx'] at hq
            cases nx with
            | fail f => exact hq
            | goto pc ran =>
              obtain ⟨h1, h2⟩ := hq
              have h1' : PCInv cfg E.A (E.M n) { c with inv := 0, pc := pc, calls := c.calls + (if ran then 1 else 0), ticks := c.ticks + 1 } := h1
              refine ⟨pcok_of (h1'.evo he (Nat.zero_le _)) ?_, lin_goto ci.lin hW h2 _ _⟩
              intro lv out e
              have e' : pc = .iterNext lv out := e
              subst e'
              have hreq : c.req = .iter := h1'.1
              -- only iteration goes there
              cases hcp : c.pc with
              | isEmpty => exact hie hcp
              | iterNew => exact hin hcp
              | iterNext lv out => exact hit' _ _ hcp
              | get => simp only [PCInv, hcp] at hpc; rw [hreq] at hpc; cases hpc.1
              | rem => simp only [PCInv, hcp] at hpc; rw [hreq] at hpc; cases hpc.1
              | remCas => simp only [PCInv, hcp] at hpc; rw [hreq] at hpc; cases hpc.1
              | count =>
                simp only [PCInv, hcp] at hpc
                obtain ⟨⟨k, hk⟩, -⟩ := hpc
                rw [hreq] at hk; cases hk
              | trav =>
                simp only [PCInv, hcp] at hpc
                obtain ⟨d, -, ht⟩ := hpc
                have := ht.req
                rw [hreq] at this; cases this
              | travCas =>
                simp only [PCInv, hcp] at hpc
                obtain ⟨d, -, ht, -⟩ := hpc
                have := ht.req
                rw [hreq] at this; cases this
              | prune parent child i acc k =>
                simp only [PCInv, hcp] at hpc
                cases k with
                | trav => have := hpc.1.1; rw [hreq] at this; cases this
                | rem => have := hpc.1.1; rw [hreq] at this; cases this
                | clean => obtain ⟨⟨⟨k, hk⟩, -⟩, -⟩ := hpc.1; rw [hreq] at hk; cases hk
              | pruneCas parent child acc k =>
                simp only [PCInv, hcp] at hpc
                cases k with
                | trav => have := hpc.1.1; rw [hreq] at this; cases this
                | rem => have := hpc.1.1; rw [hreq] at this; cases this
                | clean => obtain ⟨⟨⟨k, hk⟩, -⟩, -⟩ := hpc.1; rw [hreq] at hk; cases hk
            | ret r refs =>
              obtain ⟨o', ret, h1, rfl, h2, h3, h4, h5⟩ := hq
              have h1' : c.req = .op o' := h1
              refine ⟨?_, ?_⟩
              · simp only [OutOK, h1']
                refine ⟨ret, rfl, ?_, ?_, h4⟩
                · rcases h5 with ⟨p', h6, rfl⟩ | ⟨h6, ⟨q, h7, h8⟩, hni, v, h9, h10⟩
                  · obtain ⟨i, o2, a1, a2, a3⟩ := lin_taken ci.lin h6
                    rw [h1'] at a2; cases a2
                    exact Or.inl ⟨i, by omega, a3⟩
                  · have := h7.unique hloc
                    subst this
                    exact Or.inr ⟨lin_none ci.lin h6 hW, hni, v, σ, hsaw h8 h9, h10⟩
                · intro p' hp'
                  obtain ⟨a, b1, items, b2, b3⟩ := h2 p' hp'
                  exact ⟨a, b1, items, he.data _ _ b2, b3⟩
              · intro a ha'
                obtain ⟨items, hi⟩ := h3 a ha'
                rw [he.data _ _ hi]; simp
  | silent ha hnx hm hW =>
    have he : Evo (E.M n) (E.M (n + 1)) := by rw [hm]; exact Evo.bump _
    have H1 : Hist cfg E.A E.M (n + 1) := hist_bump H rfl hm
    have hret : ∀ a, (E.M (n + 1)).retired a = (E.M n).retired a := by intro a; rw [hm]; rfl
    refine ⟨H1, ?_, ?_, ?_, ?_⟩
    · intro a h1 h2; rw [hret] at h2; exact absurd h1 h2
    · intro _; show (E.M (n + 1)).abs cfg = _; rw [hm, abs_bump]; rfl
    · intro lp h1; rw [hW] at h1; cases h1
    · have hit : ∃ lv out, c.pc = .iterNext lv out := by
        cases hcp : c.pc with
        | iterNext lv out => exact ⟨lv, out, rfl⟩
        | count deleted ref parent child rest i cnt =>
          exfalso
          have hpc := ci.pc.inv (by intro lv out e; rw [hcp] at e; cases e)
          simp only [PCInv, hcp] at hpc
          obtain ⟨-, -, -, a, cs, q, h1, -⟩ := hpc
          simp only at h1
          rw [hcp, h1] at ha; cases ha
        | prune parent child i acc k =>
          exfalso
          have hpc := ci.pc.inv (by intro lv out e; rw [hcp] at e; cases e)
          simp only [PCInv, hcp] at hpc
          obtain ⟨-, a, cs, q, h1, -⟩ := hpc
          rw [hcp, h1] at ha; cases ha
        | _ => rw [hcp] at ha; cases ha
      obtain ⟨lv, out, hit⟩ := hit
      have hpc := ci.pc
      simp only [PCOK, hit] at hpc
      obtain ⟨h1, h2, qs, h3⟩ := hpc
      have hnx' : nx = tickIterNext (E.M n) lv out := by rw [hnx, hit]; rfl
      rw [hnx']
      refine next_iter (out := out) ci h1 h2 he hW (by rw [hit]; rfl) ?_
      refine qTickIterNext (qs := qs) hinv (h3.mono ?_) (fun _ => rfl) (fun _ => rfl) ?_
      · rintro k v ⟨σ', hs'⟩
        exact ⟨σ', hs'.mono E (Nat.le_succ _) hn⟩
      · intro ℓ' o' ha'
        rw [← hit, ha] at ha'; cases ha'
end
end CExec
end Contrie
