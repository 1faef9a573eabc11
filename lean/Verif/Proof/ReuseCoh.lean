import Verif.Model.ReuseWeak
import Verif.Proof.ReuseSim
import Verif.Props.Coherent
import Verif.Proof.CohSolo
/-
Weak memory with reuse of memory: facts about the machine without reuse that are needed.
-/
set_option linter.unusedSectionVars false
set_option linter.unusedSimpArgs false
namespace Contrie
variable {K P : Type} [DecidableEq K] {cfg : Config K P} {ρ : Nat → Nat}

/-! ### What sessions hold, and see, is there -/
namespace CExec
variable (E : CExec cfg)

theorem seen_mem {n : Nat} (hn : n ≤ E.len) {V0 : Loc → Nat} {a : Nat} (h : SeenLive cfg E.M n V0 a) : (E.st n).m.mem a ≠ none := by
  obtain ⟨σ, nd, h1, h2, h3, -⟩ := h
  have H := (E.cinv hn).hist
  cases nd with
  | data l => have := H.data h1 (Nat.le_refl n) h2; rw [show (E.st n).m.mem a = _ from this]; simp
  | inner c p => obtain ⟨c', h', -⟩ := H.inner h1 (Nat.le_refl n) h2; rw [show (E.st n).m.mem a = _ from h']; simp

/-- Nodes a call holds are not destroyed. -/
theorem held_live {n t : Nat} (hn : n ≤ E.len) {c : Call K P} (hc : ((E.st n).thr t).run = some c) {a : Nat} (h : c.pc.Holds a) :
    (E.st n).m.deref a ≠ none := by
  have hi := E.cinv hn
  have ci := (hi.sess t).run c hc
  obtain ⟨p0, hp0, hp1⟩ := ci.pin
  have hlt := ci.lt
  have hs := ci.holds a h
  have hf := hi.alive E hn hp0 (hs.anti (E.V_mono t (by omega) (by omega)))
  simpa [Mem.deref, hf] using E.seen_mem hn hs

/-- Nodes a call would find, looking as far back as it can, are not destroyed. -/
theorem sight {n t : Nat} (hn : n ≤ E.len) {c : Call K P} (hc : ((E.st n).thr t).run = some c) {ℓ : Loc} {o : LoadOrd} (ha : c.pc.access .code = some (ℓ, o)) {τ : Nat}
    (hτ : τ ≤ n) (hv : E.V t n ℓ ≤ τ) {w : Word} (hr : (E.st τ).m.read ℓ = some w) {a : Nat} (hp : w.ptr = some a) : (E.st n).m.deref a ≠ none := by
  have h := E.cinv hn
  have H := h.hist
  have ci := (h.sess t).run c hc
  obtain ⟨p0, hp0, hp1⟩ := ci.pin
  have hlt := ci.lt
  have hVle : ∀ ℓ, E.V t n ℓ ≤ n := (E.base hn).view t
  have hreach : ∃ p, Reached E.M n (E.V t c.inv) (E.V t n) p ℓ := by
    rcases access_hasLoc ha with rfl | h1
    · exact ⟨[], Reached.root (E.V_mono t (Nat.le_of_lt ci.lt) hn)⟩
    · exact ci.locs ℓ h1
  obtain ⟨p, hre⟩ := hreach
  have hloc := hre.chain.locAt H hVle
  have hrdM : (E.M τ).read ℓ = some w := by
    simp only [M]
    rw [← thaw_read]
    · exact hr
    · intro b hb
      cases ℓ with
      | root => cases hb
      | slot d i =>
        cases hb
        cases hf : (E.st τ).m.freed b with
        | false => rfl
        | true => simp [Mem.read, Mem.deref, hf] at hr
  have hat := H.at_read hτ hloc hrdM
  obtain ⟨σ, hl⟩ := hre.read H hVle (V' := upd (E.V t n) ℓ τ) (by
    intro ℓ'
    by_cases e : ℓ' = ℓ
    · subst e; simpa using hv
    · rw [upd_other _ _ e]) hv hτ (by simp) hat
  have hs := hl.seen H hτ hp
  have hf := h.alive E hn hp0 (hs.anti (E.V_mono t (by omega) (by omega)))
  simpa [Mem.deref, hf] using E.seen_mem hn hs

theorem blank {n : Nat} (hn : n ≤ E.len) : Blank (E.st n).m := by
  have h := (E.cinv hn).hist.inv n (Nat.le_refl n)
  have h1 : (E.st n).m.mem (E.st n).m.next = none := h.fresh _ (Nat.le_refl _)
  have h2 : (E.st n).m.retired (E.st n).m.next = none := h.retired_none h1
  refine ⟨h1, h2, ?_⟩
  cases hf : (E.st n).m.freed (E.st n).m.next with
  | false => rfl
  | true =>
    obtain ⟨i, hi, hl⟩ := E.freed_at hn hf
    obtain ⟨r, tr, weak, τ, g1, g2, g3, g4, g5⟩ := E.gc i _ (by omega) hl
    obtain ⟨x, hx⟩ := Option.ne_none_iff_exists'.mp g4
    have := (E.cinv hn).hist.retired (x := r + 1) (y := n) (by omega) (Nat.le_refl n) hx
    rw [show (E.M n).retired _ = _ from h2] at this
    cases this

theorem freed_mono {i j : Nat} (hij : i ≤ j) (hj : j ≤ E.len) {a : Nat} (h : (E.st j).m.freed a = false) : (E.st i).m.freed a = false := by
  induction hij with
  | refl => exact h
  | @step j hij ih =>
    refine ih (by omega) ?_
    obtain ⟨m', t, th, h1, h2, h3, -⟩ := cstep_next (E.step j hj)
    have hm : (E.st (j + 1)).m.freed = m'.freed := by rw [h1]; rfl
    rw [hm] at h
    rcases h3 with h3 | ⟨b, -, h3⟩
    · rw [← h3]; exact h
    · rw [h3] at h
      by_cases e : a = b
      · subst e; simp at h
      · rwa [upd_other _ _ e] at h

/-- A node that is linked is not destroyed. -/
theorem linked_live {n : Nat} (hn : n ≤ E.len) {a : Nat} (h : Linked (E.st n).m a) : (E.st n).m.deref a ≠ none := by
  have hi := (E.cinv hn).hist.inv n (Nat.le_refl n)
  have hl : Linked (E.M n) a := by
    induction h with
    | root h => exact .root h
    | cell _ h1 h2 ih => exact .cell ih h1 h2
  obtain ⟨q, w, hf, hw⟩ := (linked_iff hi).mp hl
  have hok := hi.path_ok hf
  have hm : (E.st n).m.mem a ≠ none := by
    cases hd : w.data with
    | true => obtain ⟨l, hl, -⟩ := hok.of_data hw hd; rw [show (E.st n).m.mem a = _ from hl]; simp
    | false => obtain ⟨c, hl⟩ := hok.of_inner hw hd; rw [show (E.st n).m.mem a = _ from hl]; simp
  cases hfr : (E.st n).m.freed a with
  | false => simpa [Mem.deref, hfr] using hm
  | true =>
    exfalso
    obtain ⟨i, hi', hlab⟩ := E.freed_at hn hfr
    obtain ⟨r, tr, weak, τ, g1, g2, g3, g4, g5⟩ := E.gc i _ (by omega) hlab
    obtain ⟨x, hx⟩ := Option.ne_none_iff_exists'.mp g4
    have := (E.cinv hn).hist.retired (x := r + 1) (y := n) (by omega) (Nat.le_refl n) hx
    rw [hi.live q w a hf hw] at this
    cases this

/-- The call in progress makes one more step, and looks where it may. -/
theorem one_more_at {t : Nat} {c : Call K P} (hc : ((E.st E.len).thr t).run = some c) (weak : Bool) {τ : Nat}
    (hen : (CLabel.tick t weak τ : CLabel K P).enabled (E.st E.len)) :
    ∃ E' : CExec cfg, GoesOn E E' ∧ E'.len = E.len + 1 ∧ E'.lab E.len = .tick t weak τ := by
  have hs : ∃ s' e, cstep cfg (E.st E.len) (.tick t weak τ) = some (s', e) ∧
      ∀ u, (s'.thr u).pin = ((E.st E.len).thr u).pin := by
    simp only [cstep, hc]
    refine ⟨_, _, rfl, fun u => ?_⟩
    simp only [CState.next]
    by_cases e : u = t
    · subst e; rw [upd_same, apply_pin]
    · rw [upd_other _ _ e]
  obtain ⟨s', e, hs, hpin⟩ := hs
  let st' : Nat → CState K P := fun i => if i ≤ E.len then E.st i else s'
  let lab' : Nat → CLabel K P := fun i => if i < E.len then E.lab i else .tick t weak τ
  let ev' : Nat → Option (Event K P) := fun i => if i < E.len then E.ev i else e
  have hst : ∀ i, i ≤ E.len → st' i = E.st i := fun i hi => by simp [st', hi]
  have hst1 : st' (E.len + 1) = s' := by simp [st']
  have hlab : ∀ i, i < E.len → lab' i = E.lab i := fun i hi => by simp [lab', hi]
  have hlab1 : lab' E.len = .tick t weak τ := by simp [lab']
  have hev : ∀ i, i < E.len → ev' i = E.ev i := fun i hi => by simp [ev', hi]
  have hev1 : ev' E.len = e := by simp [ev']
  refine ⟨⟨E.len + 1, st', lab', ev', ?_, ?_, ?_, ?_, ?_⟩, ⟨Nat.le_succ _, hst, hlab, hev⟩, rfl, hlab1⟩
  · rw [hst 0 (Nat.zero_le _)]; exact E.init
  · intro i hi
    by_cases hi' : i < E.len
    · rw [hst i (by omega), hlab i hi', hst (i + 1) hi', hev i hi']; exact E.step i hi'
    · obtain rfl : i = E.len := by omega
      rw [hst _ (Nat.le_refl _), hlab1, hst1, hev1]; exact hs
  · intro i hi
    by_cases hi' : i < E.len
    · rw [hst i (by omega), hlab i hi']; exact E.enabled i hi'
    · obtain rfl : i = E.len := by omega
      rw [hst _ (Nat.le_refl _), hlab1]; exact hen
  · intro i hi
    by_cases hi' : i < E.len
    · rw [hlab i hi']; exact E.wf i hi'
    · obtain rfl : i = E.len := by omega
      rw [hlab1]; trivial
  · intro i a hi hl
    have hi' : i < E.len := by
      by_cases hi' : i < E.len
      · exact hi'
      · obtain rfl : i = E.len := by omega
        rw [hlab1] at hl; cases hl
    rw [hlab i hi'] at hl
    obtain ⟨r, tr, wk, σ, h1, h2, h3, h4, h5⟩ := E.gc i a hi' hl
    refine ⟨r, tr, wk, σ, h1, by rw [hlab r (by omega)]; exact h2, by rw [hst r (by omega)]; exact h3,
      by rw [hst (r + 1) (by omega)]; exact h4, ?_⟩
    intro j u p hj1 hj2 hp
    refine HB.mono (Nat.le_succ _) hlab ?_
    by_cases hj : j ≤ E.len
    · rw [hst j hj] at hp; exact h5 j u p hj1 hj hp
    · obtain rfl : j = E.len + 1 := by omega
      rw [hst1, hpin u] at hp
      exact h5 E.len u p (by omega) (Nat.le_refl _) hp

/-- No step of a call fails, wherever it looks. -/
theorem tick_ok {t : Nat} {c : Call K P} (hc : ((E.st E.len).thr t).run = some c) (weak : Bool) {τ : Nat}
    (hen : (CLabel.tick t weak τ : CLabel K P).enabled (E.st E.len)) : (tick cfg ((E.st E.len).seen c.pc τ) weak c.pc).2.ok := by
  obtain ⟨E', h1, h2, h3⟩ := E.one_more_at hc weak hen
  have hs := E'.step E.len (by omega)
  rw [h3, h1.st _ (Nat.le_refl _)] at hs
  simp only [cstep, hc, Option.some.injEq, Prod.mk.injEq] at hs
  cases hn : (tick cfg ((E.st E.len).seen c.pc τ) weak c.pc).2 with
  | fail f =>
    have hf := ((E'.cinv (n := E.len + 1) (by omega)).sess t).noFail
    rw [← hs.1] at hf
    simp [CState.next, hn, CThread.apply] at hf
  | goto => trivial
  | ret => trivial

end CExec

/-! ### Renaming -/

theorem access_renamed (O : Orders) (pc : PC K P) : (pc.ren ρ).access O = (pc.access O).map (fun x => (x.1.ren ρ, x.2)) := by
  cases pc with
  | iterNext lv out =>
    cases lv with
    | nil => rfl
    | cons x lv =>
      obtain ⟨w, idx⟩ := x
      simp only [PC.ren, renIter, List.map, PC.access, Word.ren_ptr, Word.ren_data]
      cases w.ptr with
      | none => rfl
      | some a =>
        simp only [Option.map]
        by_cases hd : w.data = true
        · simp [hd]
        · by_cases h : idx < 16
          · simp [h, hd, Loc.ren]
          · simp [h, hd]
  | count d ref parent child rest i cnt => simp only [PC.ren, PC.access, Word.ren_ptr]; cases child.ptr <;> rfl
  | prune parent child i acc k => simp only [PC.ren, PC.access, Word.ren_ptr]; cases child.ptr <;> rfl
  | _ => rfl

theorem stores_renamed (O : Orders) (weak : Bool) {pc : PC K P} {w : Word} (h : ∀ l e, pc.cas = some (l, e) → (w.ren ρ = e.ren ρ ↔ w = e)) :
    (pc.ren ρ).stores O weak (w.ren ρ) = pc.stores O weak w := by
  cases pc with
  | travCas st hash mode shift cur parent node new kind => simp only [PC.ren, PC.stores, h _ _ rfl]
  | remCas k shift cur lv node new del => simp only [PC.ren, PC.stores, h _ _ rfl]
  | pruneCas parent child acc k => simp only [PC.ren, PC.stores, h _ _ rfl]
  | _ => rfl

theorem cas_accesses {pc : PC K P} {l : Loc} {e : Word} (h : pc.cas = some (l, e)) : pc.access .code = some (l, Orders.code.cas) := by
  cases pc <;> simp only [PC.cas, Option.some.injEq, Prod.mk.injEq, reduceCtorEq] at h
  all_goals (obtain ⟨rfl, rfl⟩ := h; rfl)

theorem cas_holds_it {pc : PC K P} {l : Loc} {e : Word} (h : pc.cas = some (l, e)) {a : Nat} (ha : e.ptr = some a) : pc.Holds a := by
  cases pc <;> simp only [PC.cas, Option.some.injEq, Prod.mk.injEq, reduceCtorEq] at h
  case travCas => obtain ⟨rfl, rfl⟩ := h; exact .inr (.inl ha)
  case remCas => obtain ⟨rfl, rfl⟩ := h; exact .inr ha
  case pruneCas => obtain ⟨rfl, rfl⟩ := h; exact .inr (.inl (.inr ha))

theorem writes_renamed {ma mc : Mem P} (h : MemRel ρ ma mc) (weak : Bool) {pc : PC K P} (hr : ∀ l o, pc.access .code = some (l, o) → ma.read l ≠ none)
    (hcas : ∀ l e w, pc.cas = some (l, e) → ma.read l = some w → (w.ren ρ = e.ren ρ ↔ w = e)) : (pc.ren ρ).writes mc weak = pc.writes ma weak := by
  simp only [PC.writes, access_renamed]
  cases ha : pc.access .code with
  | none => rfl
  | some x =>
    obtain ⟨l, o⟩ := x
    obtain ⟨w, hw⟩ := Option.ne_none_iff_exists'.mp (hr l o ha)
    simp only [Option.map, hw, h.read hw]
    rw [stores_renamed]
    intro l' e he
    have := cas_accesses he
    rw [ha] at this
    cases this
    exact hcas _ e w he hw

theorem Blank.see {m : Mem P} (h : Blank m) (x : Option (Loc × Word)) : Blank (m.see x) := by
  cases x with
  | none => exact h
  | some y =>
    obtain ⟨h1, h2, h3, h4, h5, h6, h7⟩ := write_frame m y.2 y.1
    exact ⟨by rw [Mem.see, h1, h7]; exact h.mem, by rw [Mem.see, h1, h3]; exact h.retired, by rw [Mem.see, h1, h4]; exact h.freed⟩

theorem see_next (m : Mem P) (x : Option (Loc × Word)) : (m.see x).next = m.next := by
  cases x with
  | none => rfl
  | some y => exact (write_frame m y.2 y.1).1

end Contrie
