import Verif.Proof.CohStep
/-
The invariant of the coherent machine.
-/
set_option linter.unusedSectionVars false
namespace Contrie
variable {K P : Type} [DecidableEq K]

/-- More knowledge, less can be seen. -/
theorem SeenLive.anti {cfg : Config K P} {M : Nat → Mem P} {n : Nat} {V0 V : Loc → Nat} (h : ∀ ℓ, V0 ℓ ≤ V ℓ) {a : Nat}
    (hs : SeenLive cfg M n V a) : SeenLive cfg M n V0 a := by
  obtain ⟨σ, nd, h1, h2, h3, h4⟩ := hs
  exact ⟨σ, nd, h1, h2, h3, fun τ0 ho => h4 τ0 (ho.mono h)⟩

namespace CExec
variable {cfg : Config K P} (E : CExec cfg)

/-- The memory at instant `τ`, regardless of what is destroyed. -/
def M (τ : Nat) : Mem P := (E.st τ).m.thaw
/-- The content of the map at instant `τ`. -/
def A (τ : Nat) : AMap K P := (E.M τ).abs cfg
/-- The update that takes effect in step `i`. -/
def W (i : Nat) : Option (LP K P) :=
  match E.lab i with
  | .tick t weak τ => if τ = i then match ((E.st i).thr t).run with
      | some c => lpOf cfg (E.M i) weak c
      | none => none
    else none
  | _ => none

/-- Session `t`, since call `id`, has seen before instant `n` the value `v` of key `k`, as of instant `σ`. -/
structure Saw (t id n : Nat) (k : K) (v : Option P) (σ : Nat) : Prop where
  lt : σ < n
  val : E.A σ k = v
  fresh : ∀ τ0, Trail E.M (E.V t id) [] (nibs (cfg.hash k)) .root τ0 → τ0 ≤ σ
  trail : Trail E.M (E.V t n) [] (nibs (cfg.hash k)) .root σ

theorem Saw.mono {t id n n' : Nat} {k : K} {v : Option P} {σ : Nat} (h : E.Saw t id n k v σ) (hn : n ≤ n') (hl : n' ≤ E.len) :
    E.Saw t id n' k v σ :=
  ⟨by have := h.lt; omega, h.val, h.fresh, h.trail.mono (E.V_mono t hn hl)⟩

/-- What a leaf that was loaded tells. -/
theorem Saw.of_learnt {n : Nat} (H : Hist cfg E.A E.M n) {t id : Nat} {p : List (Fin 16)} {ℓ : Loc} {w : Word} {τ σ : Nat}
    (hl : Learnt E.M n (E.V t id) (E.V t (n + 1)) p ℓ w τ σ) (hτ : τ ≤ n) {k : K} (hk : p <+: nibs (cfg.hash k)) {v : Option P}
    (hv : (E.M n).leafVal cfg k w = some v) : E.Saw t id (n + 1) k v σ := by
  have hσ := hl.le
  have h := H.inv σ (by omega)
  have hleaf := leafVal_leaf hv
  have hok := hl.live.1.wordOK h
  have hv' := H.leafVal (x := σ) (by omega) (Nat.le_refl n) hok hv
  obtain ⟨ns, hns⟩ := hk
  refine ⟨by omega, hl.live.value h ⟨ns, hns⟩ hv', ?_, ?_⟩
  · intro τ0 ht
    rw [← hns] at ht
    exact hl.fresh ns τ0 (Or.inr hleaf) ht
  · rw [← hns]; exact hl.trail ns (Or.inr hleaf)

/-- The invariant of a program counter. -/
def PCOK (n t : Nat) (c : Call K P) : Prop :=
  match c.pc with
  | .iterNext lv out => c.req = .iter ∧ c.calls = 0 ∧
      ∃ qs, CIter cfg (E.M n) (fun k v => ∃ σ, E.Saw t c.inv n k v σ) lv qs out
  | _ => PCInv cfg E.A (E.M n) { c with inv := 0 }

/-- The invariant of a call in progress. -/
structure CallInv (n t : Nat) (c : Call K P) : Prop where
  pin : ∃ p, ((E.st n).thr t).pin = some p ∧ p < c.inv
  lt : c.inv < n
  lab : E.lab c.inv = .call t c.req
  pc : E.PCOK n t c
  locs : ∀ ℓ, c.pc.HasLoc ℓ → ∃ p, Reached E.M n (E.V t c.inv) (E.V t n) p ℓ
  holds : ∀ a, c.pc.Holds a → SeenLive cfg E.M n (E.V t c.inv) a
  lin : LinInv E.W n c

/-- The invariant of a session. -/
structure SessInv (n t : Nat) : Prop where
  noFail : ((E.st n).thr t).failed = none
  pinlt : ∀ p, ((E.st n).thr t).pin = some p → p < n
  run : ∀ c, ((E.st n).thr t).run = some c → E.CallInv n t c
  refs : ∀ a ∈ ((E.st n).thr t).refs, ∃ p, ((E.st n).thr t).pin = some p ∧ SeenLive cfg E.M n (E.V t (p + 1)) a

/-- An update that takes effect. -/
def UpdOK (i : Nat) (lp : LP K P) : Prop :=
  ∃ t weak c, E.lab i = .tick t weak i ∧ ((E.st i).thr t).run = some c ∧ c.inv = lp.id ∧ c.pc.taken = none ∧
    lp.id < i ∧ E.lab lp.id = .call t (.op lp.op) ∧
    (E.A i).apply cfg.key lp.op = (E.A (i + 1), lp.ret) ∧
    Trail E.M (E.V t (i + 1)) [] (nibs (cfg.hash (lp.op.key cfg.key))) .root (i + 1)

/-- The result of a call. -/
def OutOK (j t : Nat) (c : Call K P) (r : Res P) (refs : List Nat) : Prop :=
  match c.req with
  | .op o => ∃ ret, r = .op ret ∧
      ((∃ i, i ≤ j ∧ E.W i = some ⟨c.inv, o, ret⟩) ∨
       (NotYet E.W (j + 1) c.inv ∧ (∀ p, o ≠ .insert p) ∧ ∃ v σ, E.Saw t c.inv (j + 1) (o.key cfg.key) v σ ∧
         ∀ B : AMap K P, B (o.key cfg.key) = v → B.apply cfg.key o = (B, ret))) ∧
      (∀ p ∈ ret.payloads, ∃ a ∈ refs, ∃ items, (E.M (j + 1)).mem a = some (.data items) ∧ p ∈ items) ∧
      (match o with
        | .getOrInsert _ _ => c.calls ≤ 1 ∧ ((∃ p, ret = .eon (.new p)) → c.calls = 1)
        | _ => c.calls = 0)
  | .isEmpty => ∃ b, r = .bool b ∧ (b = true → ∃ σ, σ ≤ j ∧ ∀ k, E.Saw t c.inv (j + 1) k none σ)
  | .iter => ∃ out, r = .list out ∧ ∀ k, ∃ v σ, E.Saw t c.inv (j + 1) k v σ ∧ ofKey cfg k out = v.toList

/-- A return. -/
def RetC (j id : Nat) (r : Res P) : Prop :=
  ∃ t weak τ c, E.lab j = .tick t weak τ ∧ ((E.st j).thr t).run = some c ∧ c.inv = id ∧ id < j ∧
    E.lab id = .call t c.req ∧ ((E.st (j + 1)).thr t).run = none ∧ E.OutOK j t c r ((E.st (j + 1)).thr t).refs

/-- The invariant. -/
structure CInv (n : Nat) : Prop where
  hist : Hist cfg E.A E.M n
  sess : ∀ t, E.SessInv n t
  obit : ∀ r tr weak τ a, r < n → E.lab r = .tick tr weak τ → (E.M r).retired a = none → (E.M (r + 1)).retired a ≠ none →
    ∃ nd, (E.M r).mem a = some nd ∧ Obit cfg E.M (E.V tr (r + 1)) nd (r + 1)
  keep : ∀ i, i < n → E.W i = none → E.A (i + 1) = E.A i
  upd : ∀ i lp, i < n → E.W i = some lp → E.UpdOK i lp
  rets : ∀ j id r, j < n → E.ev j = some (.res id r) → E.RetC j id r

/-- What a session has seen alive since it pinned is not destroyed. -/
theorem CInv.alive {n : Nat} (h : E.CInv n) (hn : n ≤ E.len) {t p a : Nat} (hp : ((E.st n).thr t).pin = some p)
    (hs : SeenLive cfg E.M n (E.V t (p + 1)) a) : (E.st n).m.freed a = false := by
  cases hf : (E.st n).m.freed a with
  | false => rfl
  | true =>
    exfalso
    obtain ⟨i, hi, hl⟩ := E.freed_at hn hf
    obtain ⟨r, tr, weak, τ, h1, h2, h3, h4, h5⟩ := E.gc i a (by omega) hl
    have hb := h5 n t p (by omega) hn hp
    have hpn := (h.sess t).pinlt p hp
    obtain ⟨-, hV⟩ := E.hb hb (by simp only; omega)
    obtain ⟨nd, h6, h7⟩ := h.obit r tr weak τ a (by omega) h2 h3 h4
    have hr : (E.M (r + 1)).retired a = some r := by
      cases hr : (E.M (r + 1)).retired a with
      | none => exact absurd hr h4
      | some r' =>
        have := (h.hist.evo r (by omega)).retNew a r' h3 hr
        rw [h.hist.clock r (by omega)] at this
        rw [this]
    exact hs.not_dead h.hist (h.hist.retired (by omega) (Nat.le_refl n) hr) h6 (h7.mono hV)

/-- What a step of a call does. -/
inductive Did (n t : Nat) (weak : Bool) (τ : Nat) (c : Call K P) (nx : Next K P) : Prop
  | store (ℓ : Loc) (o : LoadOrd) (p : List (Fin 16)) (w : Word) (σ : Nat) (ha : c.pc.access .code = some (ℓ, o))
      (hτ : τ = n) (hw : c.pc.writes (E.M n) weak = true) (hnx : nx = (tick cfg (E.M n) weak c.pc).2)
      (hm : E.M (n + 1) = (tick cfg (E.M n) weak c.pc).1.bump) (hv : E.V t (n + 1) ℓ = n + 1)
      (hW : E.W n = lpOf cfg (E.M n) weak c) (hread : (E.M n).read ℓ = some w) (hch : Chain E.M (E.V t n) p ℓ)
      (hl : Learnt E.M n (E.V t c.inv) (E.V t (n + 1)) p ℓ w n σ)
  | load (ℓ : Loc) (o : LoadOrd) (p : List (Fin 16)) (w : Word) (mw : Mem P) (σ : Nat) (ha : c.pc.access .code = some (ℓ, o))
      (hτ : τ ≤ n) (hw : c.pc.writes mw weak = false) (hnx : nx = (tick cfg mw weak c.pc).2)
      (hm : E.M (n + 1) = (E.M n).bump) (hW : E.W n = none) (hs : QSeen cfg (E.M n) mw ℓ w)
      (hloc : LocAt (E.M n) 0 ℓ p) (hl : Learnt E.M n (E.V t c.inv) (E.V t (n + 1)) p ℓ w τ σ)
      (hmw : mw = (E.M n).write w ℓ) (hrd : (E.M τ).read ℓ = some w) (hv : E.V t (n + 1) ℓ = τ)
  | silent (ha : c.pc.access .code = none) (hnx : nx = (tick cfg (E.M n) weak c.pc).2)
      (hm : E.M (n + 1) = (E.M n).bump) (hW : E.W n = none)

theorem see_thaw (m : Mem P) (x : Option (Loc × Word)) : (m.see x).thaw = m.thaw.see x := by
  cases x with
  | none => rfl
  | some y => exact write_thaw m y.2 y.1

theorem CInv.did {n : Nat} (h : E.CInv n) (hn : n < E.len) {t : Nat} {weak : Bool} {τ : Nat}
    (hl : E.lab n = .tick t weak τ) {c : Call K P} (hc : ((E.st n).thr t).run = some c) :
    E.Did n t weak τ c (tick cfg ((E.st n).seen c.pc τ) weak c.pc).2 := by
  have hb := E.base (Nat.le_of_lt hn)
  have H := h.hist
  have ci := (h.sess t).run c hc
  obtain ⟨p0, hp0, hp1⟩ := ci.pin
  have hen := E.enabled n hn
  rw [hl] at hen
  have hs := E.step n hn
  rw [hl] at hs
  simp only [cstep, hc, Option.some.injEq, Prod.mk.injEq] at hs
  have hs1 := hs.1
  have hclt : c.inv ≤ E.len := by have := ci.lt; omega
  have alive : ∀ a, SeenLive cfg E.M n (E.V t c.inv) a → (E.st n).m.freed a = false := by
    intro a ha
    exact h.alive E (Nat.le_of_lt hn) hp0 (ha.anti (E.V_mono t (by omega) hclt))
  have held : ∀ a, c.pc.Holds a → (E.st n).m.freed a = false := fun a ha => alive a (ci.holds a ha)
  have hWn : E.W n = if τ = n then lpOf cfg (E.M n) weak c else none := by
    simp only [W, hl, hc]
  have hMn : E.M (n + 1) = ((if τ = n then (tick cfg ((E.st n).seen c.pc τ) weak c.pc).1 else (E.st n).m)).thaw.bump := by
    simp only [M]
    rw [← hs1]
    simp only [CState.next, thaw_bump, hb.clock]
  have hVn : E.V t (n + 1) = c.pc.look ((E.st n).seen c.pc τ) weak τ n (E.V t n) := by
    simp only [V]
    rw [← hs1]
    simp only [CState.next, upd_same, apply_view, hb.clock]
  cases ha : c.pc.access .code with
  | none =>
    have hτ : τ = n := by
      rcases hen with he | ⟨-, c', ℓ', o', h2, h3, -⟩
      · rw [hb.clock] at he; exact he
      · rw [hc] at h2; cases h2
        rw [ha] at h3; cases h3
    have hseen : (E.st n).seen c.pc τ = (E.st n).m := by simp [CState.seen, ha, Mem.see]
    have hin : Intact (E.st n).m c.pc := ⟨held, by rintro w a ⟨ℓ, o, h1, -⟩; rw [ha] at h1; cases h1⟩
    obtain ⟨t1, t2⟩ := tick_thaw cfg weak hin
    have hq : c.pc.writes (E.st n).m.thaw weak = false := by simp [PC.writes, ha]
    refine .silent ha ?_ ?_ ?_
    · rw [hseen, t1]; rfl
    · rw [hMn, hseen]
      simp only [hτ, if_true]
      rw [t2, tick_quiet cfg _ weak hq]
      rfl
    · rw [hWn]
      simp only [hτ, if_true]
      cases hpc : c.pc with
      | travCas => rw [hpc] at ha; cases ha
      | remCas => rw [hpc] at ha; cases ha
      | _ => simp only [lpOf, hpc]; split <;> rfl
  | some x =>
    obtain ⟨ℓ, o⟩ := x
    obtain ⟨hτn, hVτ⟩ := E.looks hn hb hl hc ha
    have hVle : ∀ ℓ, E.V t n ℓ ≤ n := hb.view t
    have hreach : ∃ p, Reached E.M n (E.V t c.inv) (E.V t n) p ℓ := by
      rcases access_hasLoc ha with rfl | h1
      · exact ⟨[], Reached.root (E.V_mono t (Nat.le_of_lt ci.lt) (Nat.le_of_lt hn))⟩
      · exact ci.locs ℓ h1
    obtain ⟨p, hr⟩ := hreach
    have hloc := hr.chain.locAt H hVle
    -- the value seen
    have hread : ∃ w, (E.st τ).m.read ℓ = some w := by
      rcases hen with he | ⟨-, c', ℓ', o', h2, h3, h4, -⟩
      · rw [hb.clock] at he
        subst he
        cases ℓ with
        | root => exact ⟨_, rfl⟩
        | slot a i =>
          obtain ⟨cs, q, h1, -⟩ := hloc
          have hfa := held a (access_holds ha rfl)
          have h1' : (E.st τ).m.mem a = some (.inner cs q) := h1
          exact ⟨cs i, by simp [Mem.read, Mem.deref, hfa, h1']⟩
      · rw [hc] at h2; cases h2
        rw [ha] at h3; cases h3
        rw [hb.memAt E hτn] at h4
        cases hrd : (E.st τ).m.read ℓ with
        | none => exact absurd hrd h4
        | some w => exact ⟨w, rfl⟩
    obtain ⟨w, hrd⟩ := hread
    have hrdM : (E.M τ).read ℓ = some w := by
      simp only [M]
      rw [← thaw_read]
      · exact hrd
      · intro a hna
        cases ℓ with
        | root => cases hna
        | slot b i =>
          cases hna
          cases hf : (E.st τ).m.freed a with
          | false => rfl
          | true => simp [Mem.read, Mem.deref, hf] at hrd
    have hat := H.at_read hτn hloc hrdM
    have hok : WordOK cfg (E.M n) w p := H.wordOK hτn (Nat.le_refl n) (hat.wordOK (H.inv τ hτn))
    have hclean : ℓ = .root → w.cond = false := by
      intro e; subst e
      have : (E.M τ).root = w := by simpa [Mem.read] using hrdM
      rw [← this]; exact (H.inv τ hτn).rootClean
    have hseen : (E.st n).seen c.pc τ = (E.st n).m.write w ℓ := by
      simp [CState.seen, ha, hb.memAt E hτn, hrd, Mem.see]
    have hQ : QSeen cfg (E.M n) ((E.M n).write w ℓ) ℓ w := qSeen_write (fun a => rfl) hloc hok hclean
    have hsthaw : ((E.st n).seen c.pc τ).thaw = (E.M n).write w ℓ := by rw [hseen, write_thaw]; rfl
    have hV1 : E.V t (n + 1) ℓ = if c.pc.writes ((E.st n).seen c.pc τ) weak = true then n + 1 else τ := by
      rw [hVn]; simp only [PC.look, ha, upd_same]
    have hVV : ∀ ℓ, E.V t n ℓ ≤ E.V t (n + 1) ℓ := E.V_mono t (Nat.le_succ _) hn
    have hV' : τ ≤ E.V t (n + 1) ℓ := by rw [hV1]; split <;> omega
    obtain ⟨σ, hlearn⟩ := hr.read H hVle hVV hVτ hτn hV' hat
    have hin : Intact ((E.st n).seen c.pc τ) c.pc := by
      refine ⟨?_, ?_⟩
      · intro a h1
        rw [hseen, write_freed]; exact held a h1
      · intro w' a h1 h2
        obtain ⟨ℓ', o', h3, h4⟩ := h1
        rw [ha] at h3; cases h3
        rw [hsthaw, hQ.read] at h4; cases h4
        rw [hseen, write_freed]
        exact alive a (hlearn.seen H hτn h2)
    obtain ⟨t1, t2⟩ := tick_thaw cfg weak hin
    have t3 := writes_thaw hin weak
    rw [hsthaw] at t1 t2 t3
    by_cases hw : c.pc.writes ((E.M n).write w ℓ) weak = true
    · have hτ : τ = n := by
        rcases hen with he | ⟨-, c', ℓ', o', h2, h3, -, -, h6⟩
        · rw [hb.clock] at he; exact he
        · rw [hc] at h2; cases h2
          rw [t3, hw] at h6; cases h6
      subst hτ
      have hsame : (E.M τ).write w ℓ = E.M τ := write_same hrdM
      rw [hsame] at t1 t2 t3 hw
      refine .store ℓ o p w σ ha rfl hw t1 ?_ ?_ ?_ hrdM hr.chain hlearn
      · rw [hMn]; simp only [if_true]; rw [t2]
      · rw [hV1, t3, hw]; rfl
      · rw [hWn]; simp
    · have hw' : c.pc.writes ((E.M n).write w ℓ) weak = false := by simpa using hw
      refine .load ℓ o p w _ σ ha hτn hw' t1 ?_ ?_ hQ hloc hlearn rfl hrdM (by rw [hV1, t3, hw']; rfl)
      · rw [hMn]
        by_cases e : τ = n
        · subst e
          have hsame : (E.M τ).write w ℓ = E.M τ := write_same hrdM
          simp only [if_true]
          rw [t2, tick_quiet cfg _ weak hw', hsame]
        · simp only [e, if_false]; rfl
      · rw [hWn]
        by_cases e : τ = n
        · subst e
          have hsame : (E.M τ).write w ℓ = E.M τ := write_same hrdM
          rw [hsame] at hw'
          simp only [if_true]
          exact lpOf_quiet hw'
        · simp only [e, if_false]
end CExec
end Contrie
