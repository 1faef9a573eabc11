import Verif.Proof.WildBase
import Verif.Proof.WildSeen
import Verif.Proof.CohInv
/-
The invariant of the coherent machine with misbehaving user code; cf. `Verif/Proof/CohInv.lean`.
-/
set_option linter.unusedSectionVars false
namespace Contrie
variable {K P : Type} [DecidableEq K]

section
variable {M : Nat → Mem P} {n : Nat}

theorem HHist.wordOK (H : HHist M n) {x y : Nat} (hxy : x ≤ y) (hy : y ≤ n) {w : Word} {q : List (Fin 16)}
    (h : HWordOK (M x) w q) : HWordOK (M y) w q := by
  induction hxy with
  | refl => exact h
  | step hxy ih => exact (ih (by omega)).evo (H.evo _ hy)

theorem Chain.hlocAt (H : HHist M n) {V : Loc → Nat} (hV : ∀ ℓ, V ℓ ≤ n) {p : List (Fin 16)} {ℓ : Loc}
    (hc : Chain M V p ℓ) : LocAt (M n) 0 ℓ p := by
  cases hc with
  | root => rfl
  | down p ℓ σ w a i hσ hl hp hd hc =>
    have hσn : σ ≤ n := Nat.le_trans hσ (hV _)
    obtain ⟨⟨c, hm⟩, -⟩ := hl.hinner (H.inv σ hσn) hp hd
    obtain ⟨c', h1, -⟩ := H.inner hσn (Nat.le_refl _) hm
    exact ⟨c', p, h1, rfl, held_zero (by rw [h1]; simp)⟩

/-- What was in a location. -/
theorem HHist.at_read (H : HHist M n) {τ : Nat} (hτ : τ ≤ n) {ℓ : Loc} {p : List (Fin 16)} (hl : LocAt (M n) 0 ℓ p)
    {w : Word} (hr : (M τ).read ℓ = some w) : (M τ).At ℓ p w := by
  cases ℓ with
  | root => exact ⟨hl, by simpa [Mem.read] using hr⟩
  | slot a i =>
    obtain ⟨c, p', h1, rfl, -⟩ := hl
    simp only [Mem.read, Mem.deref] at hr
    split at hr
    · next cs path hd =>
      split at hd
      · cases hd
      · cases hr
        obtain ⟨c', h2, -⟩ := H.inner hτ (Nat.le_refl _) hd
        rw [h1] at h2; cases h2
        exact ⟨cs, _, hd, rfl, rfl⟩
    · cases hr

theorem hhist_step (H : HHist M n) (hi : HMemInv (M (n + 1))) (he : Evo (M n) (M (n + 1)))
    (hs : ∀ a c p, (M n).mem a = some (.inner c p) → (M n).retired a = none →
      (M (n + 1)).retired a ≠ none → (M (n + 1)).mem a = some (.inner c p))
    (hb : ∀ a, (M n).mem a = none → (M (n + 1)).retired a = none) (hmv : Moves (M n) (M (n + 1))) : HHist M (n + 1) where
  inv := by
    intro τ hτ
    by_cases e : τ = n + 1
    · subst e; exact hi
    · exact H.inv τ (by omega)
  clock := by
    intro τ hτ
    by_cases e : τ = n + 1
    · subst e; rw [he.clock, H.clock n (Nat.le_refl _)]
    · exact H.clock τ (by omega)
  evo := by
    intro τ hτ
    by_cases e : τ = n
    · subst e; exact he
    · exact H.evo τ (by omega)
  still := by
    intro τ hτ
    by_cases e : τ = n
    · subst e; exact hs
    · exact H.still τ (by omega)
  born := by
    intro τ hτ
    by_cases e : τ = n
    · subst e; exact hb
    · exact H.born τ (by omega)
  moves := by
    intro τ hτ
    by_cases e : τ = n
    · subst e; exact hmv
    · exact H.moves τ (by omega)

theorem hhist_bump (H : HHist M n) (hm : M (n + 1) = (M n).bump) : HHist M (n + 1) := by
  have h := H.inv n (Nat.le_refl _)
  refine hhist_step H (by rw [hm]; exact h.bump) (by rw [hm]; exact Evo.bump _) ?_ ?_ ?_
  · intro a c p _ h1 h2
    rw [hm] at h2; exact absurd h1 h2
  · intro a h1
    rw [hm]; exact h.retired_none h1
  · rintro a q q' ⟨w, h1, h2⟩ ⟨w', h3, h4⟩
    rw [hm] at h3
    have h3' : (M n).follow (M n).root q' = some w' := by
      rw [← h3]; exact (follow_mem (m' := (M n).bump) (m := M n) rfl _ _).symm
    exact Or.inl (h.path_unique h3' h1 h4 h2)
end

namespace WExec
variable (E : WExec K P)

/-- The memory at instant `τ`, regardless of what is destroyed. -/
def M (τ : Nat) : Mem P := (E.st τ).m.thaw

/-- The invariant of a call in progress. -/
structure CallInv (n t : Nat) (c : Call K P) : Prop where
  pin : ∃ p, ((E.st n).thr t).pin = some p ∧ p < c.inv
  lt : c.inv < n
  lab : E.lab c.inv = .call t c.req
  pc : HPCInv (E.M n) 0 c.ticks c.pc
  locs : ∀ ℓ, c.pc.HasLoc ℓ → ∃ p, WReached E.M n (E.V t c.inv) (E.V t n) p ℓ
  holds : ∀ a, c.pc.Holds a → WSeen E.M n (E.V t c.inv) a

/-- The invariant of a session. -/
structure SessInv (n t : Nat) : Prop where
  noFail : ((E.st n).thr t).failed = none
  pinlt : ∀ p, ((E.st n).thr t).pin = some p → p < n
  run : ∀ c, ((E.st n).thr t).run = some c → E.CallInv n t c
  refs : ∀ a ∈ ((E.st n).thr t).refs, ∃ p, ((E.st n).thr t).pin = some p ∧ WSeen E.M n (E.V t (p + 1)) a

/-- The invariant. -/
structure WInv (n : Nat) : Prop where
  hist : HHist E.M n
  sess : ∀ t, E.SessInv n t
  obit : ∀ r tr weak τ a, r < n → E.lab r = .tick tr weak τ → (E.M r).retired a = none → (E.M (r + 1)).retired a ≠ none →
    ∃ p, LinkedAt (E.M r) p a ∧ Trail E.M (E.V tr (r + 1)) [] p .root (r + 1)

/-- What a session has seen alive since it pinned is not destroyed. -/
theorem WInv.alive {n : Nat} (h : E.WInv n) (hn : n ≤ E.len) {t p a : Nat} (hp : ((E.st n).thr t).pin = some p)
    (hs : WSeen E.M n (E.V t (p + 1)) a) : (E.st n).m.freed a = false := by
  cases hf : (E.st n).m.freed a with
  | false => rfl
  | true =>
    exfalso
    obtain ⟨i, hi, hl⟩ := E.freed_at hn hf
    obtain ⟨r, tr, weak, τ, h1, h2, h3, h4, h5⟩ := E.gc i a (by omega) hl
    have hb := h5 n t p (by omega) hn hp
    have hpn := (h.sess t).pinlt p hp
    obtain ⟨-, hV⟩ := E.hb hb (by simp only; omega)
    obtain ⟨q, h6, h7⟩ := h.obit r tr weak τ a (by omega) h2 h3 h4
    have hr : (E.M (r + 1)).retired a = some r := by
      cases hr : (E.M (r + 1)).retired a with
      | none => exact absurd hr h4
      | some r' =>
        have := (h.hist.evo r (by omega)).retNew a r' h3 hr
        rw [h.hist.clock r (by omega)] at this
        rw [this]
    refine hs.not_dead h.hist ?_ (h.hist.retired (by omega) (Nat.le_refl n) hr) h6 (h7.mono hV)
    intro ℓ
    have := E.V_le (n := p + 1) (by omega) t ℓ
    omega

/-- What a step of a call does. -/
inductive Did (n t : Nat) (weak : Bool) (τ : Nat) (c : Call K P) (nx : Next K P) : Prop
  | store (ℓ : Loc) (o : LoadOrd) (p : List (Fin 16)) (w : Word) (σ : Nat) (ha : c.pc.access .code = some (ℓ, o))
      (hτ : τ = n) (hw : c.pc.writes (E.M n) weak = true) (hnx : nx = (hTick (E.ans n) (E.M n) weak c.pc).2)
      (hm : E.M (n + 1) = (hTick (E.ans n) (E.M n) weak c.pc).1.bump) (hv : E.V t (n + 1) ℓ = n + 1)
      (hread : (E.M n).read ℓ = some w) (hch : Chain E.M (E.V t n) p ℓ)
      (hl : WLearnt E.M n (E.V t c.inv) (E.V t (n + 1)) p ℓ w n σ)
  | load (ℓ : Loc) (o : LoadOrd) (p : List (Fin 16)) (w : Word) (mw : Mem P) (σ : Nat) (ha : c.pc.access .code = some (ℓ, o))
      (hτ : τ ≤ n) (hw : c.pc.writes mw weak = false) (hnx : nx = (hTick (E.ans n) mw weak c.pc).2)
      (hm : E.M (n + 1) = (E.M n).bump) (hs : HLook (E.M n) mw ℓ w)
      (hloc : LocAt (E.M n) 0 ℓ p) (hl : WLearnt E.M n (E.V t c.inv) (E.V t (n + 1)) p ℓ w τ σ)
      (hmw : mw = (E.M n).write w ℓ) (hrd : (E.M τ).read ℓ = some w) (hv : E.V t (n + 1) ℓ = τ)
  | silent (ha : c.pc.access .code = none) (hnx : nx = (hTick (E.ans n) (E.M n) weak c.pc).2)
      (hm : E.M (n + 1) = (E.M n).bump) (hq : (hTick (E.ans n) (E.M n) weak c.pc).1 = E.M n)

/-- No step of a call reaches for anything destroyed. -/
theorem WInv.held {n : Nat} (h : E.WInv n) (hn : n ≤ E.len) {t : Nat} {c : Call K P} (hc : ((E.st n).thr t).run = some c)
    {a : Nat} (hs : WSeen E.M n (E.V t c.inv) a) : (E.st n).m.freed a = false := by
  have ci := (h.sess t).run c hc
  obtain ⟨p0, hp0, hp1⟩ := ci.pin
  have := ci.lt
  exact h.alive E hn hp0 (hs.anti (E.V_mono t (by omega) (by omega)))

theorem WInv.did {n : Nat} (h : E.WInv n) (hn : n < E.len) {t : Nat} {weak : Bool} {τ : Nat}
    (hl : E.lab n = .tick t weak τ) {c : Call K P} (hc : ((E.st n).thr t).run = some c) :
    E.Did n t weak τ c (hTick (E.ans n) ((E.st n).seen c.pc τ) weak c.pc).2 ∧ Intact ((E.st n).seen c.pc τ) c.pc := by
  have hb := E.base (Nat.le_of_lt hn)
  have H := h.hist
  have ci := (h.sess t).run c hc
  have hen := E.enabled n hn
  rw [hl] at hen
  have hs := E.step n hn
  rw [hl] at hs
  simp only [wstep, hc, Option.some.injEq, Prod.mk.injEq] at hs
  have hs1 := hs.1
  have hclt : c.inv ≤ E.len := by have := ci.lt; omega
  have alive : ∀ a, WSeen E.M n (E.V t c.inv) a → (E.st n).m.freed a = false := fun a ha => h.held E (Nat.le_of_lt hn) hc ha
  have held : ∀ a, c.pc.Holds a → (E.st n).m.freed a = false := fun a ha => alive a (ci.holds a ha)
  have hMn : E.M (n + 1) = ((if τ = n then (hTick (E.ans n) ((E.st n).seen c.pc τ) weak c.pc).1 else (E.st n).m)).thaw.bump := by
    simp only [M]
    rw [← hs1]
    simp only [CState.next, thaw_bump, hb.clock]
  have hVn : E.V t (n + 1) = c.pc.look ((E.st n).seen c.pc τ) weak τ n (E.V t n) := by
    simp only [V]
    rw [← hs1]
    simp only [CState.next, upd_same, wapply_view, hb.clock]
  cases ha : c.pc.access .code with
  | none =>
    have hτ : τ = n := by
      rcases hen with he | ⟨-, c', ℓ', o', h2, h3, -⟩
      · rw [hb.clock] at he; exact he
      · rw [hc] at h2; cases h2
        rw [ha] at h3; cases h3
    have hseen : (E.st n).seen c.pc τ = (E.st n).m := by simp [CState.seen, ha, Mem.see]
    have hin : Intact (E.st n).m c.pc := ⟨held, by rintro w a ⟨ℓ, o, h1, -⟩; rw [ha] at h1; cases h1⟩
    obtain ⟨t1, t2⟩ := hTick_thaw (E.ans n) weak hin
    have hq : c.pc.writes (E.st n).m.thaw weak = false := by simp [PC.writes, ha]
    refine ⟨.silent ha ?_ ?_ (hTick_quiet _ _ weak hq), by rw [hseen]; exact hin⟩
    · rw [hseen, t1]; rfl
    · rw [hMn, hseen]
      simp only [hτ, if_true]
      rw [t2, hTick_quiet _ _ weak hq]
      rfl
  | some x =>
    obtain ⟨ℓ, o⟩ := x
    obtain ⟨hτn, hVτ⟩ := E.looks hn hb hl hc ha
    have hVle : ∀ ℓ, E.V t n ℓ ≤ n := hb.view t
    have hreach : ∃ p, WReached E.M n (E.V t c.inv) (E.V t n) p ℓ := by
      rcases access_hasLoc ha with rfl | h1
      · exact ⟨[], WReached.root (E.V_mono t (Nat.le_of_lt ci.lt) (Nat.le_of_lt hn))⟩
      · exact ci.locs ℓ h1
    obtain ⟨p, hr⟩ := hreach
    have hloc := hr.chain.hlocAt H hVle
    -- the value seen
    have hread : ∃ w, (E.st τ).m.read ℓ = some w := by
      rcases hen with he | ⟨-, c', ℓ', o', h2, h3, h4, -⟩
      · rw [hb.clock] at he
        subst he
        cases ℓ with
        | root => exact ⟨_, rfl⟩
        | slot a i =>
          obtain ⟨cs, q, h1, -⟩ := hloc
          have hfa := held a (access_holds ha rfl)
          have h1' : (E.st τ).m.mem a = some (.inner cs q) := h1
          exact ⟨cs i, by simp [Mem.read, Mem.deref, hfa, h1']⟩
      · rw [hc] at h2; cases h2
        rw [ha] at h3; cases h3
        rw [hb.memAt E hτn] at h4
        cases hrd : (E.st τ).m.read ℓ with
        | none => exact absurd hrd h4
        | some w => exact ⟨w, rfl⟩
    obtain ⟨w, hrd⟩ := hread
    have hrdM : (E.M τ).read ℓ = some w := by
      simp only [M]
      rw [← thaw_read]
      · exact hrd
      · intro a hna
        cases ℓ with
        | root => cases hna
        | slot b i =>
          cases hna
          cases hf : (E.st τ).m.freed a with
          | false => rfl
          | true => simp [Mem.read, Mem.deref, hf] at hrd
    have hat := H.at_read hτn hloc hrdM
    have hok : HWordOK (E.M n) w p := H.wordOK hτn (Nat.le_refl n) ((H.inv τ hτn).at_ok hat)
    have hclean : ℓ = .root → w.cond = false := by
      intro e; subst e
      have : (E.M τ).root = w := by simpa [Mem.read] using hrdM
      rw [← this]; exact (H.inv τ hτn).rootClean
    have hseen : (E.st n).seen c.pc τ = (E.st n).m.write w ℓ := by
      simp [CState.seen, ha, hb.memAt E hτn, hrd, Mem.see]
    have h0 : 0 < (E.M n).clock := by rw [H.clock n (Nat.le_refl _)]; have := ci.lt; omega
    have hQ : HLook (E.M n) ((E.M n).write w ℓ) ℓ w := hLook_write (H.inv n (Nat.le_refl _)) h0 (fun a => rfl) hloc hok hclean
    have hsthaw : ((E.st n).seen c.pc τ).thaw = (E.M n).write w ℓ := by rw [hseen, write_thaw]; rfl
    have hV1 : E.V t (n + 1) ℓ = if c.pc.writes ((E.st n).seen c.pc τ) weak = true then n + 1 else τ := by
      rw [hVn]; simp only [PC.look, ha, upd_same]
    have hVV : ∀ ℓ, E.V t n ℓ ≤ E.V t (n + 1) ℓ := E.V_mono t (Nat.le_succ _) hn
    have hV' : τ ≤ E.V t (n + 1) ℓ := by rw [hV1]; split <;> omega
    obtain ⟨σ, hlearn⟩ := hr.read H hVle hVV hVτ hτn hV' hat
    have hin : Intact ((E.st n).seen c.pc τ) c.pc := by
      refine ⟨?_, ?_⟩
      · intro a h1
        rw [hseen, write_freed]; exact held a h1
      · intro w' a h1 h2
        obtain ⟨ℓ', o', h3, h4⟩ := h1
        rw [ha] at h3; cases h3
        rw [hsthaw, hQ.seen] at h4; cases h4
        rw [hseen, write_freed]
        exact alive a (hlearn.seen H hτn h2)
    obtain ⟨t1, t2⟩ := hTick_thaw (E.ans n) weak hin
    have t3 := writes_thaw hin weak
    rw [hsthaw] at t1 t2 t3
    refine ⟨?_, hin⟩
    by_cases hw : c.pc.writes ((E.M n).write w ℓ) weak = true
    · have hτ : τ = n := by
        rcases hen with he | ⟨-, c', ℓ', o', h2, h3, -, -, h6⟩
        · rw [hb.clock] at he; exact he
        · rw [hc] at h2; cases h2
          rw [t3, hw] at h6; cases h6
      subst hτ
      have hsame : (E.M τ).write w ℓ = E.M τ := write_same hrdM
      rw [hsame] at t1 t2 t3 hw
      refine .store ℓ o p w σ ha rfl hw t1 ?_ ?_ hrdM hr.chain hlearn
      · rw [hMn]; simp only [if_true]; rw [t2]
      · rw [hV1, t3, hw]; rfl
    · have hw' : c.pc.writes ((E.M n).write w ℓ) weak = false := by simpa using hw
      refine .load ℓ o p w _ σ ha hτn hw' t1 ?_ hQ hloc hlearn rfl hrdM (by rw [hV1, t3, hw']; rfl)
      rw [hMn]
      by_cases e : τ = n
      · subst e
        have hsame : (E.M τ).write w ℓ = E.M τ := write_same hrdM
        simp only [if_true]
        rw [t2, hTick_quiet _ _ weak hw', hsame]
      · simp only [e, if_false]; rfl
end WExec
end Contrie
