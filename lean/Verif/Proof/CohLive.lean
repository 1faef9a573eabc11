import Verif.Proof.CohLin
/-
What references point to in the coherent machine.
-/
set_option linter.unusedSectionVars false
namespace Contrie
open scoped List
variable {K P : Type} [DecidableEq K]

/-- A lookup that finds something ends in a data node. -/
theorem look_finds {cfg : Config K P} {m : Mem P} {k : K} {p : P} : ∀ {ns : List (Fin 16)} {w : Word},
    m.look cfg k w ns = some p → ∃ q w1, q <+: ns ∧ m.follow w q = some w1 ∧ m.leafVal cfg k w1 = some (some p) := by
  intro ns
  induction ns with
  | nil =>
    intro w h
    simp only [Mem.look] at h
    cases hl : m.leafVal cfg k w with
    | none => rw [hl] at h; cases h
    | some v =>
      rw [hl] at h
      simp only [Option.getD_some] at h
      subst h
      exact ⟨[], w.erase, List.nil_prefix, rfl, hl⟩
  | cons i ns ih =>
    intro w h
    simp only [Mem.look] at h
    cases hl : m.leafVal cfg k w with
    | some v =>
      rw [hl] at h
      simp only at h
      subst h
      exact ⟨[], w.erase, List.nil_prefix, rfl, hl⟩
    | none =>
      rw [hl] at h
      simp only at h
      cases hc : m.cellsOf w with
      | none => rw [hc] at h; cases h
      | some c =>
        rw [hc] at h
        simp only at h
        obtain ⟨q, w1, h1, h2, h3⟩ := ih h
        refine ⟨i :: q, w1, ?_, ?_, h3⟩
        · obtain ⟨r, hr⟩ := h1; exact ⟨r, by simp [hr]⟩
        · simp only [Mem.follow, hc]; exact h2

theorem prefix_full {q l : List (Fin 16)} (h : q <+: l) (hl : q.length = l.length) : q = l := by
  obtain ⟨r, rfl⟩ := h
  simp at hl
  subst hl
  simp

namespace CExec
variable {cfg : Config K P} {E : CExec cfg}

/-- The node in which a value was seen. -/
theorem Saw.live {n t id : Nat} {k : K} {p : P} {σ m : Nat} (H : Hist cfg E.A E.M m) (hm : n ≤ m + 1) (h : E.Saw t id n k (some p) σ) :
    ∃ a items, (E.M σ).mem a = some (.data items) ∧ p ∈ items ∧ SeenLive cfg E.M n (E.V t id) a := by
  have hσ := h.lt
  have hi := H.inv σ (by omega)
  have hv : (E.M σ).abs cfg k = some p := h.val
  obtain ⟨q, w1, h1, h2, h3⟩ := look_finds hv
  have hok := hi.path_ok h2
  cases hp : w1.ptr with
  | none => rw [leafVal_null hp] at h3; cases h3
  | some a =>
    have hd : w1.data = true := by
      rcases leafVal_leaf h3 with h4 | h4
      · rw [hp] at h4; cases h4
      · exact h4
    obtain ⟨items, g1, g2⟩ := hok.of_data hp hd
    rw [leafVal_data hp hd g1] at h3
    injection h3 with h3
    have hpi : p ∈ items := List.mem_of_find?_eq_some h3
    have hpk : cfg.key p = k := by simpa using List.find?_some h3
    refine ⟨a, items, g1, hpi, σ, _, by omega, g1, hi.live q w1 a h2 hp, ?_⟩
    rintro τ0 ⟨x, hx, ht⟩
    have : nibs (cfg.hash (cfg.key x)) = nibs (cfg.hash k) := by
      rcases g2.short with hs | hs
      · match items, hs with
        | [y], _ =>
          simp only [List.mem_singleton] at hx hpi
          rw [hx, ← hpi, hpk]
      · rw [← prefix_full (g2.pre x hx) (by rw [hs, nibs_length]), ← prefix_full h1 (by rw [hs, nibs_length])]
    rw [this] at ht
    exact h.fresh τ0 ht

variable (E)

/-- Session `t` keeps its guard from instant `i` until instant `n`. -/
def KeepsGuard (t i n : Nat) : Prop := ∀ j, i ≤ j → j < n → E.lab j ≠ .unpin t ∧ E.lab j ≠ .abort t

theorem pin_keep {n t p : Nat} (hn : n < E.len) (hp : ((E.st n).thr t).pin = some p) (h1 : E.lab n ≠ .unpin t)
    (h2 : E.lab n ≠ .abort t) : ((E.st (n + 1)).thr t).pin = some p := by
  have h := E.step n hn
  cases hl : E.lab n with
  | sync t0 t' τ =>
    rw [hl] at h
    simp only [cstep, Option.some.injEq, Prod.mk.injEq] at h
    rw [← h.1]
    simp only [CState.next]
    by_cases e : t = t0
    · subst e; rw [upd_same]; exact hp
    · rw [upd_other _ _ e]; exact hp
  | free a =>
    rw [hl] at h
    simp only [cstep, Option.some.injEq, Prod.mk.injEq] at h
    rw [← h.1]; simp only [CState.next, upd_self]; exact hp
  | idle =>
    rw [hl] at h
    simp only [cstep, Option.some.injEq, Prod.mk.injEq] at h
    rw [← h.1]; simp only [CState.next, upd_self]; exact hp
  | pin t0 =>
    rw [hl] at h
    simp only [cstep] at h
    split at h
    · next hn' _ =>
      simp only [Option.some.injEq, Prod.mk.injEq] at h
      rw [← h.1]
      simp only [CState.next]
      by_cases e : t = t0
      · subst e; rw [hn'] at hp; cases hp
      · rw [upd_other _ _ e]; exact hp
    · cases h
  | unpin t0 =>
    have e : t ≠ t0 := by intro e; exact h1 (by rw [hl, e])
    rw [hl] at h
    simp only [cstep] at h
    split at h
    · simp only [Option.some.injEq, Prod.mk.injEq] at h
      rw [← h.1]
      simp only [CState.next]
      rw [upd_other _ _ e]; exact hp
    · cases h
  | call t0 r =>
    rw [hl] at h
    simp only [cstep] at h
    split at h
    · simp only [Option.some.injEq, Prod.mk.injEq] at h
      rw [← h.1]
      simp only [CState.next]
      by_cases e : t = t0
      · subst e; rw [upd_same]; exact hp
      · rw [upd_other _ _ e]; exact hp
    · cases h
  | tick t0 weak τ =>
    rw [hl] at h
    simp only [cstep] at h
    split at h
    · cases h
    · simp only [Option.some.injEq, Prod.mk.injEq] at h
      rw [← h.1]
      simp only [CState.next]
      by_cases e : t = t0
      · subst e; rw [upd_same, apply_pin]; exact hp
      · rw [upd_other _ _ e]; exact hp
  | abort t0 =>
    have e : t ≠ t0 := by intro e; exact h2 (by rw [hl, e])
    rw [hl] at h
    simp only [cstep] at h
    split at h
    · cases h
    · simp only [Option.some.injEq, Prod.mk.injEq] at h
      rw [← h.1]
      simp only [CState.next]
      rw [upd_other _ _ e]; exact hp

/-- A node a pinned session has seen alive stays intact while the session keeps the guard. -/
theorem seen_valid {i t p a : Nat} {items : List P} (hp : ((E.st i).thr t).pin = some p)
    (hs : SeenLive cfg E.M i (E.V t (p + 1)) a) (hm : (E.M i).mem a = some (.data items)) (n : Nat) (hn : i ≤ n) (hl : n ≤ E.len)
    (hk : E.KeepsGuard t i n) : (E.st n).m.deref a = some (.data items) := by
  have key : ∀ k, i + k ≤ n → ((E.st (i + k)).thr t).pin = some p := by
    intro k
    induction k with
    | zero => intro _; exact hp
    | succ k ih =>
      intro hk'
      obtain ⟨g1, g2⟩ := hk (i + k) (by omega) (by omega)
      have hlt : i + k < E.len := by omega
      exact E.pin_keep hlt (ih (by omega)) g1 g2
  have h1 := key (n - i) (by omega)
  rw [show i + (n - i) = n by omega] at h1
  have hI := E.cinv hl
  have hf := hI.alive E hl h1 (hs.mono hn)
  have hm' : (E.st n).m.mem a = some (.data items) := hI.hist.data hn (Nat.le_refl _) hm
  simp [Mem.deref, hf, hm']

theorem ret_pin {j id : Nat} {r : Res P} (hj : j < E.len) (h : E.ev j = some (.res id r)) {t : Nat} {weak : Bool} {τ : Nat}
    (hl : E.lab j = .tick t weak τ) : ∃ p c, ((E.st (j + 1)).thr t).pin = some p ∧ p < id ∧ id < j ∧ c.inv = id ∧
      ((E.st j).thr t).run = some c ∧ E.OutOK j t c r ((E.st (j + 1)).thr t).refs := by
  obtain ⟨t', weak', τ', c, h1, h2, h3, h4, h5, h6, h7⟩ := E.ret hj h
  rw [hl] at h1; cases h1
  have ci := ((E.cinv (Nat.le_of_lt hj)).sess t).run c h2
  obtain ⟨p, hp1, hp2⟩ := ci.pin
  exact ⟨p, c, E.pin_keep hj hp1 (by rw [hl]; simp) (by rw [hl]; simp), by omega, h4, h3, h2, h7⟩

/-- What an iteration has yielded was seen. -/
theorem yielded_saw {n t : Nat} {c : Call K P} (hn : n ≤ E.len) (hc : ((E.st n).thr t).run = some c) {lv : List (Word × Nat)}
    {out : List P} (hpc : c.pc = .iterNext lv out) {p : P} (hp : p ∈ out) : ∃ σ, E.Saw t c.inv n (cfg.key p) (some p) σ := by
  have ci := ((E.cinv hn).sess t).run c hc
  have h := ci.pc
  simp only [PCOK, hpc] at h
  obtain ⟨-, -, qs, hi⟩ := h
  have hmem : p ∈ ofKey cfg (cfg.key p) out := by simp [ofKey, hp]
  cases hi.key (cfg.key p) with
  | ahead ha ho => rw [ho] at hmem; cases hmem
  | done v hs ho hna hnt =>
    rw [ho] at hmem
    have : v = some p := by simpa using hmem
    subst this
    exact hs
  | top w idx rest q qs' hlv hqs hq v hs hv h0 ho =>
    subst hlv hqs
    have hw : WordOK cfg (E.M n) w q := by
      cases hi.stack with
      | root _ _ hw _ => exact hw
      | push _ _ _ _ _ _ _ _ _ hw _ => exact hw
    cases hwp : w.ptr with
    | none => rw [h0 hwp] at hmem; cases hmem
    | some a =>
      have hd : w.data = true := by
        rcases leafVal_leaf hv with h4 | h4
        · rw [hwp] at h4; cases h4
        · exact h4
      obtain ⟨items, g1, g2⟩ := hw.of_data hwp hd
      rw [ho items ⟨hd, a, hwp, g1⟩] at hmem
      have hpi : p ∈ items := by
        simp only [ofKey, List.mem_filter] at hmem
        exact List.mem_of_mem_take hmem.1
      rw [leafVal_data hwp hd g1] at hv
      injection hv with hv
      rw [find_of_mem cfg.key g2.nodup hpi] at hv
      subst hv
      exact hs
end CExec
end Contrie
