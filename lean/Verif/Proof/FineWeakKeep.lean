import Verif.Proof.FineWeakMem
/-
The fine machine under weak memory: what a session has found is there until it releases its guard.
-/
set_option linter.unusedSectionVars false
set_option linter.unusedSimpArgs false
namespace Contrie
variable {K P : Type} [DecidableEq K] {cfg : Config K P}

namespace CExec
variable (E : CExec cfg)

theorem newOK {n t : Nat} (hn : n ≤ E.len) {c : Call K P} (hc : ((E.st n).thr t).run = some c) : c.pc.newOK := by
  have hi := (((E.cinv hn).sess t).run c hc).pc
  simp only [PCOK] at hi
  cases hpc : c.pc with
  | travCas st hash mode shift cur parent node new kind =>
    simp only [PCInv, hpc] at hi
    obtain ⟨d, -, hat, hcas⟩ := hi
    cases hcas with
    | fresh p hst => exact ⟨p, rfl⟩
    | split a d0 hh => trivial
    | replace a p items hst hh => exact ⟨_, p, rfl⟩
  | _ => trivial

theorem ret_lt {n : Nat} (hn : n ≤ E.len) {a v : Nat} (h : (E.st n).m.retired a = some v) : v < n := by
  induction n with
  | zero => rw [E.init] at h; cases h
  | succ n ih =>
    have H := (E.cinv hn).hist
    cases hr : (E.st n).m.retired a with
    | none =>
      have := (H.evo n (Nat.lt_succ_self n)).retNew a v hr h
      rw [H.clock n (by omega)] at this
      omega
    | some v' =>
      have e : (E.st (n + 1)).m.retired a = some v' := (H.evo n (Nat.lt_succ_self n)).retOld a v' hr
      rw [h] at e
      cases e
      have := ih (by omega) hr
      omega

/-- `sight`, in terms of what the session has seen. -/
theorem sight_seen {n t : Nat} (hn : n ≤ E.len) {c : Call K P} (hc : ((E.st n).thr t).run = some c) {ℓ : Loc} {o : LoadOrd} (ha : c.pc.access .code = some (ℓ, o)) {τ : Nat}
    (hτ : τ ≤ n) (hv : E.V t n ℓ ≤ τ) {w : Word} (hr : (E.st τ).m.read ℓ = some w) {a : Nat} (hp : w.ptr = some a) : SeenLive cfg E.M n (E.V t c.inv) a := by
  have h := E.cinv hn
  have H := h.hist
  have ci := (h.sess t).run c hc
  have hVle : ∀ ℓ, E.V t n ℓ ≤ n := (E.base hn).view t
  have hreach : ∃ p, Reached E.M n (E.V t c.inv) (E.V t n) p ℓ := by
    rcases access_hasLoc ha with rfl | h1
    · exact ⟨[], Reached.root (E.V_mono t (Nat.le_of_lt ci.lt) hn)⟩
    · exact ci.locs ℓ h1
  obtain ⟨p, hre⟩ := hreach
  have hloc := hre.chain.locAt H hVle
  have hrdM : (E.M τ).read ℓ = some w := by
    simp only [M]
    rw [← thaw_read]
    · exact hr
    · intro b hb
      cases ℓ with
      | root => cases hb
      | slot d i =>
        cases hb
        cases hf : (E.st τ).m.freed b with
        | false => rfl
        | true => simp [Mem.read, Mem.deref, hf] at hr
  have hat := H.at_read hτ hloc hrdM
  obtain ⟨σ, hl⟩ := hre.read H hVle (V' := upd (E.V t n) ℓ τ) (by
    intro ℓ'
    by_cases e : ℓ' = ℓ
    · subst e; simpa using hv
    · rw [upd_other _ _ e]) hv hτ (by simp) hat
  exact hl.seen H hτ hp

theorem read_write_value {m : Mem P} {w w' : Word} {l : Loc} (h : (m.write w l).read l = some w') : w' = w := by
  by_cases hr : m.read l = none
  · exfalso
    cases l with
    | root => simp [Mem.read] at hr
    | slot a i =>
      simp only [Mem.read, write_slot_deref, if_true] at h hr
      cases hd : m.deref a with
      | none => simp [hd] at h
      | some nd => cases nd <;> simp [hd] at h hr
  · rw [read_write_same hr] at h; exact (Option.some.inj h).symm

/-- What a step has found stays for as long as the session keeps its guard. -/
theorem found_kept {i n t p0 τ : Nat} {weak : Bool} {c : Call K P} (hi : i < E.len) (hin : i ≤ n) (hn : n ≤ E.len) (hlab : E.lab i = .tick t weak τ)
    (hc : ((E.st i).thr t).run = some c) (hp : ((E.st i).thr t).pin = some p0) (hp' : ((E.st n).thr t).pin = some p0) {w : Word}
    (hw : (∃ loc o, c.pc.access .code = some (loc, o) ∧ ((E.st i).seen c.pc τ).read loc = some w) ∨ c.pc.access .code = none ∧ w = c.pc.top) {a : Nat} (ha : w.ptr = some a) :
    (E.st n).m.freed a = false ∧ (E.st i).m.mem a ≠ none := by
  have hil : i ≤ E.len := Nat.le_of_lt hi
  have ci := ((E.cinv hil).sess t).run c hc
  have hb := E.base hil
  have key : SeenLive cfg E.M i (E.V t c.inv) a := by
    rcases hw with ⟨loc, o, h1, h2⟩ | ⟨h1, h2⟩
    · obtain ⟨hτ, hv⟩ := E.looks hi hb hlab hc h1
      refine E.sight_seen hil hc h1 hτ hv ?_ ha
      have hen := E.enabled i hi
      rw [hlab] at hen
      cases hr : (E.st τ).m.read loc with
      | some w' =>
        simp only [CState.seen, h1, hb.memAt E hτ, Option.bind, hr, Option.map_some, Mem.see] at h2
        rw [read_write_value h2]
      | none =>
        rcases hen with e | ⟨-, c', ℓ', o', h3, h4, h5, -⟩
        · rw [hb.clock] at e
          subst e
          simp only [CState.seen, h1, hb.memAt E hτ, Option.bind, hr, Option.map_none, Mem.see] at h2
          cases h2
        · rw [hc] at h3; cases h3
          rw [h1] at h4; cases h4
          rw [hb.memAt E hτ] at h5
          exact absurd hr h5
    · refine ci.holds a ?_
      subst h2
      cases hpc : c.pc with
      | iterNext lv out =>
        cases lv with
        | nil => simp [hpc, PC.top, Word.null] at ha
        | cons y rest =>
          obtain ⟨w, idx⟩ := y
          simp only [hpc, PC.top] at ha
          exact ⟨(w, idx), List.mem_cons_self, ha⟩
      | _ => rw [hpc] at ha; simp [PC.top, Word.null] at ha
  refine ⟨?_, E.seen_mem hil key⟩
  obtain ⟨p1, hp1, hp2⟩ := ci.pin
  rw [hp] at hp1; cases hp1
  have hlt := ci.lt
  exact (E.cinv hn).alive E hn hp' ((key.anti (E.V_mono t (by omega) (by omega))).mono hin)

/-- What did not exist when a guard was taken is not destroyed before it is released. -/
theorem own_kept {r n t p0 a : Nat} (hrn : r ≤ n) (hn : n ≤ E.len) (hpr : p0 < r) (hp : ((E.st n).thr t).pin = some p0) (ha : (E.st r).m.retired a = none) : (E.st n).m.freed a = false := by
  cases hf : (E.st n).m.freed a with
  | false => rfl
  | true =>
    exfalso
    obtain ⟨i, hi, hl⟩ := E.freed_at hn hf
    obtain ⟨k, tr, weak, τ, h1, h2, h3, h4, h5⟩ := E.gc i a (by omega) hl
    have hb := h5 n t p0 (by omega) hn hp
    have := (hb.restrict (lab' := E.lab) (n := p0 + 1) (by
      intro j t t' τ hj hl
      have hen := E.enabled j hj
      rw [hl] at hen
      have h6 : τ ≤ (E.st j).m.clock := hen
      rw [(E.base (Nat.le_of_lt hj)).clock] at h6
      exact ⟨h6, hl⟩) (Nat.le_refl _)).2
    have hk : k + 1 ≤ r := by
      have : k + 1 ≤ p0 + 1 := this
      omega
    obtain ⟨v, hv⟩ := Option.ne_none_iff_exists'.mp h4
    have := (E.cinv hn).hist.retired (x := k + 1) (y := r) hk hrn hv
    rw [show (E.M r).retired a = _ from ha] at this
    cases this

end CExec
end Contrie
