import Verif.Proof.FineTick
import Verif.Props.Reuse
import Verif.Props.Granularity
/-
Executions with reuse of memory: extending finite ones; what a session with a guard can rely on.
-/
set_option linter.unusedSectionVars false
set_option linter.unusedSimpArgs false
namespace Contrie
variable {K P : Type} [DecidableEq K] {cfg : Config K P}

/-! ### Only finitely many addresses are in use -/

theorem write_mem_none {m : Mem P} {a : Nat} (w : Word) (l : Loc) (h : m.mem a = none) : (m.write w l).mem a = none := by
  cases l with
  | root => exact h
  | slot b i =>
    simp only [Mem.write]
    split
    · next c q hm =>
      have : a ≠ b := by rintro rfl; rw [h] at hm; cases hm
      simpa [upd_other _ _ this] using h
    · exact h

theorem alloc_mem_none {m : Mem P} {a : Nat} (n : Node P) (h : m.mem a = none) (hne : a ≠ m.next) : (m.alloc n).mem a = none := by
  simpa [Mem.alloc, upd_other _ _ hne] using h

theorem tick_mem_none (cfg : Config K P) {m : Mem P} (weak : Bool) (pc : PC K P) {a : Nat} (h : m.mem a = none) (hne : a ≠ m.next) : (tick cfg m weak pc).1.mem a = none := by
  have hw : ∀ w l, (m.write w l).mem a = none := fun w l => write_mem_none w l h
  have hp : ∀ n w l, ((m.alloc n).write w l).mem a = none := fun n w l => write_mem_none w l (alloc_mem_none n h hne)
  have hr : ∀ n w l o, (((m.alloc n).write w l).retire o).mem a = none := fun n w l o => hp n w l
  have hr' : ∀ w l o, ((m.write w l).retire o).mem a = none := fun w l o => hw w l
  cases pc with
  | travCas st hash mode shift cur parent node new kind =>
    simp only [tick, tickTravCas]
    repeat' (first | exact h | exact hp _ _ _ | exact hr _ _ _ _ | split)
  | remCas key shift cur lv node new del =>
    simp only [tick, tickRemCas]
    repeat' (first | exact h | exact hp _ _ _ | exact hr _ _ _ _ | exact hw _ _ | exact hr' _ _ _ | split)
  | prune parent child i acc k =>
    simp only [tick, tickPrune]
    repeat' (first | exact h | exact hw _ _ | split)
  | pruneCas parent child acc k =>
    simp only [tick, tickPruneCas]
    repeat' (first | exact h | exact hp _ _ _ | exact hr _ _ _ _ | exact hw _ _ | exact hr' _ _ _ | split)
  | _ => exact h

theorem rstep_finite {s s' : State K P} {x : Nat} {l : Label K P} {e : Option (Event K P)} (hs : rstep cfg s x l = some (s', e))
    (h : ∃ b, ∀ a, b ≤ a → s.m.mem a = none) : ∃ b, ∀ a, b ≤ a → s'.m.mem a = none := by
  obtain ⟨b, hb⟩ := h
  refine ⟨b + x + 1, fun a ha => ?_⟩
  simp only [rstep] at hs
  split at hs
  · cases hs
  · have ho : (s.m.offer x).mem a = none := by simp only [Mem.offer, upd]; split <;> [rfl; exact hb a (by omega)]
    cases l with
    | tick t weak =>
      simp only [Contrie.step] at hs
      split at hs
      · cases hs
      · cases hs
        exact tick_mem_none cfg weak _ ho (by simp only [Mem.offer]; omega)
    | _ =>
      simp only [Contrie.step] at hs
      repeat' (first | cases hs; exact ho | split at hs | cases hs)

/-- A finite run with reuse of memory can be continued (by doing nothing). -/
theorem RExec.ofPrefix {st : Nat → State K P} {lab : Nat → Label K P} {addr : Nat → Nat} {ev : Nat → Option (Event K P)} (n : Nat) (h0 : st 0 = State.init)
    (hs : ∀ i, i < n → rstep cfg (st i) (addr i) (lab i) = some (st (i + 1), ev i) ∧ (lab i).enabled (st i) ∧ (lab i).WF cfg) :
    ∃ R : RExec cfg, (∀ i, i ≤ n → R.st i = st i) ∧ ∀ i, i < n → R.lab i = lab i ∧ R.addr i = addr i ∧ R.ev i = ev i := by
  have hfin : ∀ i, i ≤ n → ∃ b, ∀ a, b ≤ a → (st i).m.mem a = none := by
    intro i hi
    induction i with
    | zero => rw [h0]; exact ⟨0, fun a _ => rfl⟩
    | succ i ih => exact rstep_finite (hs i (by omega)).1 (ih (by omega))
  obtain ⟨b, hb⟩ := hfin n (Nat.le_refl _)
  let go : Nat → State K P := fun k => Nat.rec (st n) (fun _ s => ⟨(s.m.offer b).bump, s.thr⟩) k
  have hgo0 : go 0 = st n := rfl
  have hgo : ∀ k, go (k + 1) = ⟨((go k).m.offer b).bump, (go k).thr⟩ := fun k => rfl
  have hfree : ∀ k, (go k).m.inUse b = false := by
    intro k
    cases k with
    | zero => rw [hgo0]; simp [Mem.inUse, Mem.deref, hb b (Nat.le_refl _)]
    | succ k => rw [hgo]; simp [Mem.inUse, Mem.deref, Mem.bump, Mem.offer]
  let st' : Nat → State K P := fun i => if i ≤ n then st i else go (i - n)
  have hst : ∀ i, i ≤ n → st' i = st i := fun i hi => by simp [st', hi]
  have hst2 : ∀ i, n ≤ i → st' i = go (i - n) := by
    intro i hi
    by_cases e : i = n
    · subst e; rw [hst i (Nat.le_refl _), Nat.sub_self]; exact hgo0.symm
    · simp only [st']; rw [if_neg (by omega)]
  refine ⟨⟨st', fun i => if i < n then lab i else .idle, fun i => if i < n then addr i else b, fun i => if i < n then ev i else none, ?_, ?_, ?_, ?_⟩, hst, ?_⟩
  · rw [hst 0 (Nat.zero_le _), h0]
  · intro i
    by_cases hi : i < n
    · simp only [hi, ↓reduceIte]
      rw [hst i (by omega), hst (i + 1) (by omega)]
      exact (hs i hi).1
    · simp only [hi, ↓reduceIte]
      rw [hst2 i (by omega), hst2 (i + 1) (by omega), show i + 1 - n = (i - n) + 1 by omega, hgo]
      simp [rstep, hfree, Contrie.step]
  · intro i
    by_cases hi : i < n
    · simp only [hi, ↓reduceIte]; rw [hst i (by omega)]; exact (hs i hi).2.1
    · simp only [hi, ↓reduceIte]; trivial
  · intro i
    by_cases hi : i < n
    · simp only [hi, ↓reduceIte]; exact (hs i hi).2.2
    · simp only [hi, ↓reduceIte]; trivial
  · intro i hi
    simp [hi]

/-! ### What a guard protects -/

/-- There is a node at `a`, and it was not retired before `p`. -/
def SafeS (m : Mem P) (p a : Nat) : Prop := m.deref a ≠ none ∧ ∀ τ, m.retired a = some τ → p ≤ τ

theorem RExec.clock (R : RExec cfg) (n : Nat) : (R.st n).m.clock = n := by rw [(R.rel n).mem.clock]; exact R.fresh.clock n

theorem RExec.pin_fresh (R : RExec cfg) (n t : Nat) : ((R.fresh.st n).thr t).pin = ((R.st n).thr t).pin := by rw [(R.rel n).thr t]; rfl

theorem RExec.safe_of_held (R : RExec cfg) {n t p s b : Nat} (hp : ((R.st n).thr t).pin = some p) (hps : p ≤ s) (hh : Held (R.fresh.st n).m s b) :
    SafeS (R.st n).m p (R.address b) := by
  have hf : (R.fresh.st n).m.freed b = false := by
    cases hf : (R.fresh.st n).m.freed b with
    | false => rfl
    | true =>
      obtain ⟨τ, g1, g2⟩ := (R.fresh.inv n).freed b hf
      have := g2 t p (by rw [R.pin_fresh]; exact hp)
      have := hh.2 τ g1
      omega
  obtain ⟨nd, hnd⟩ := Option.ne_none_iff_exists'.mp hh.1
  have hd : (R.fresh.st n).m.deref b = some nd := deref_some.mpr ⟨hf, hnd⟩
  have hl := (R.rel n).mem.live b nd hd
  refine ⟨by rw [hl.1]; simp, fun τ hτ => ?_⟩
  rw [hl.2] at hτ
  exact Nat.le_trans hps (hh.2 τ hτ)

/-- A protected node stays. -/
theorem RExec.keep (R : RExec cfg) {n t p a : Nat} (hp' : ((R.st (n + 1)).thr t).pin = some p) (hpn : p ≤ n) (h : SafeS (R.st n).m p a) :
    SafeS (R.st (n + 1)).m p a ∧ (∀ l, (R.st n).m.deref a = some (.data l) → (R.st (n + 1)).m.deref a = some (.data l)) ∧
    (∀ c q, (R.st n).m.deref a = some (.inner c q) → ∃ c', (R.st (n + 1)).m.deref a = some (.inner c' q)) ∧
    (∀ τ, (R.st n).m.retired a = some τ → (R.st (n + 1)).m.retired a = some τ) := by
  obtain ⟨b, hb, rfl⟩ := (R.rel n).mem.only a h.1
  obtain ⟨nd, hnd⟩ := Option.ne_none_iff_exists'.mp hb
  have hl := (R.rel n).mem.live b nd hnd
  obtain ⟨hf, hm⟩ := deref_some.mp hnd
  have hheld : Held (R.fresh.st n).m p b := ⟨by rw [hm]; simp, fun τ hτ => h.2 τ (by rw [hl.2]; exact hτ)⟩
  have hevo := (R.fresh.stepOK n).evo
  have hheld' := hheld.evo hevo (by rw [R.fresh.clock]; exact hpn)
  have hs := R.safe_of_held hp' (Nat.le_refl _) hheld'
  have hf' : (R.fresh.st (n + 1)).m.freed b = false := by
    cases hf : (R.fresh.st (n + 1)).m.freed b with
    | false => rfl
    | true =>
      obtain ⟨τ, g1, g2⟩ := (R.fresh.inv (n + 1)).freed b hf
      have := g2 t p (by rw [R.pin_fresh]; exact hp')
      have := hheld'.2 τ g1
      omega
  refine ⟨hs, ?_, ?_, ?_⟩
  · intro l hd
    rw [hl.1] at hd
    cases nd with
    | inner c q => simp [Node.ren] at hd
    | data l' =>
      simp only [Node.ren, Option.some.injEq, Node.data.injEq] at hd
      subst hd
      have := hevo.data b _ hm
      exact ((R.rel (n + 1)).mem.live b _ (deref_some.mpr ⟨hf', this⟩)).1
  · intro c q hd
    rw [hl.1] at hd
    cases nd with
    | data l => simp [Node.ren] at hd
    | inner c0 q0 =>
      simp only [Node.ren, Option.some.injEq, Node.inner.injEq] at hd
      obtain ⟨-, rfl⟩ := hd
      obtain ⟨c', hc', -⟩ := hevo.inner b c0 q0 hm
      exact ⟨_, ((R.rel (n + 1)).mem.live b _ (deref_some.mpr ⟨hf', hc'⟩)).1⟩
  · intro τ hτ
    rw [hl.2] at hτ
    have := hevo.retOld b τ hτ
    obtain ⟨nd', hnd'⟩ := Option.ne_none_iff_exists'.mp hheld'.1
    rw [((R.rel (n + 1)).mem.live b nd' (deref_some.mpr ⟨hf', hnd'⟩)).2]
    exact this

/-! ### The time of retirement does not change -/

theorem step_mem_none {s s' : State K P} {l : Label K P} {e : Option (Event K P)} (hs : Contrie.step cfg s l = some (s', e)) {a : Nat} (h : s.m.mem a = none)
    (hne : a ≠ s.m.next) : s'.m.mem a = none := by
  cases l with
  | tick t weak =>
    simp only [Contrie.step] at hs
    split at hs
    · cases hs
    · cases hs
      exact tick_mem_none cfg weak _ h hne
  | _ =>
    simp only [Contrie.step] at hs
    repeat' (first | cases hs; exact h | split at hs | cases hs)

theorem step_freed_mono {s s' : State K P} {l : Label K P} {e : Option (Event K P)} (hs : Contrie.step cfg s l = some (s', e)) {a : Nat} (h : s'.m.freed a = false) :
    s.m.freed a = false := by
  cases l with
  | tick t weak =>
    simp only [Contrie.step] at hs
    split at hs
    · cases hs
    · cases hs
      have := tick_freed cfg s.m weak
      simp only [Mem.bump, this] at h
      exact h
  | free b =>
    simp only [Contrie.step] at hs
    cases hs
    simp only [Mem.bump, upd] at h
    split at h
    · cases h
    · exact h
  | _ =>
    simp only [Contrie.step] at hs
    repeat' (first | cases hs; exact h | split at hs | cases hs)

theorem RExec.ret_keep (R : RExec cfg) {n a τ : Nat} (h : (R.st n).m.deref a ≠ none) (h' : (R.st (n + 1)).m.deref a ≠ none) (hτ : (R.st n).m.retired a = some τ) :
    (R.st (n + 1)).m.retired a = some τ := by
  obtain ⟨b, hb, rfl⟩ := (R.rel n).mem.only a h
  obtain ⟨b', hb', e⟩ := (R.rel (n + 1)).mem.only _ h'
  obtain ⟨nd', hnd'⟩ := Option.ne_none_iff_exists'.mp hb'
  obtain ⟨f', m'⟩ := deref_some.mp hnd'
  have hmem : (R.fresh.st n).m.mem b' ≠ none := by
    intro hm
    have hnx : (R.fresh.st n).m.next = R.created n := (R.abs_run n).2.2.2
    have hnx' : (R.fresh.st (n + 1)).m.next = R.created (n + 1) := (R.abs_run (n + 1)).2.2.2
    have hbn : b' = (R.fresh.st n).m.next := by
      by_cases e : b' = (R.fresh.st n).m.next
      · exact e
      · have := step_mem_none (R.fresh.step n) hm e
        rw [m'] at this; cases this
    have hlt : b' < (R.fresh.st (n + 1)).m.next := by
      rcases Nat.lt_or_ge b' (R.fresh.st (n + 1)).m.next with g | g
      · exact g
      · have := (R.fresh.inv (n + 1)).mem.fresh b' g
        rw [m'] at this; cases this
    have hal : R.allocates n = true := by
      cases hal : R.allocates n with
      | true => rfl
      | false =>
        have : R.created (n + 1) = R.created n := by simp [RExec.created, hal]
        omega
    have := R.address_eq hal
    rw [← hnx, ← hbn, e] at this
    have hs := R.step n
    have hu : (R.st n).m.inUse (R.addr n) = true := by
      rw [← this]
      simp only [Mem.inUse]
      cases hd : (R.st n).m.deref (R.address b) with
      | none => exact absurd hd h
      | some x => rfl
    simp [rstep, hu] at hs
  have hf := step_freed_mono (R.fresh.step n) f'
  have hbb : b' = b := by
    refine (R.rel n).mem.inj b' b ?_ hb e
    simpa [Mem.deref, hf] using hmem
  subst hbb
  obtain ⟨nd, hnd⟩ := Option.ne_none_iff_exists'.mp hb
  rw [((R.rel n).mem.live b' nd hnd).2] at hτ
  have := (R.fresh.stepOK n).evo.retOld b' τ hτ
  rw [((R.rel (n + 1)).mem.live b' nd' hnd').2]
  exact this

theorem RExec.ret_lt (R : RExec cfg) {n a τ : Nat} (h : (R.st n).m.deref a ≠ none) (hτ : (R.st n).m.retired a = some τ) : τ < n := by
  obtain ⟨b, hb, rfl⟩ := (R.rel n).mem.only a h
  obtain ⟨nd, hnd⟩ := Option.ne_none_iff_exists'.mp hb
  rw [((R.rel n).mem.live b nd hnd).2] at hτ
  have := ((R.fresh.inv n).mem.retTime b τ hτ).1
  rwa [R.fresh.clock] at this

/-! ### Calls in progress -/

theorem RExec.running (R : RExec cfg) {n t : Nat} {c : Call K P} (h : ((R.st n).thr t).run = some c) :
    ∃ c0, R.fresh.Running n t c0 ∧ c = c0.ren R.address := by
  rw [(R.rel n).thr t] at h
  simp only [Thread.ren, Option.map_eq_some_iff] at h
  obtain ⟨c0, h1, h2⟩ := h
  exact ⟨c0, h1, h2.symm⟩

theorem RExec.run_pin (R : RExec cfg) {n t : Nat} {c : Call K P} (h : ((R.st n).thr t).run = some c) : ∃ p, ((R.st n).thr t).pin = some p ∧ p ≤ c.inv ∧ c.inv < n := by
  obtain ⟨c0, h0, rfl⟩ := R.running h
  obtain ⟨⟨p, hp1, hp2⟩, hlt, -⟩ := ((R.fresh.inv n).thr t).run c0 h0
  rw [R.fresh.clock] at hlt
  rw [R.pin_fresh] at hp1
  exact ⟨p, hp1, hp2, hlt⟩

theorem cas_ren {ρ : Nat → Nat} (pc : PC K P) : (pc.ren ρ).cas = pc.cas.map (fun x => (x.1.ren ρ, x.2.ren ρ)) := by cases pc <;> rfl

theorem RExec.cas_safe (R : RExec cfg) {n t p : Nat} {c : Call K P} (h : ((R.st n).thr t).run = some c) (hp : ((R.st n).thr t).pin = some p) {loc : Loc} {e : Word}
    (hc : c.pc.cas = some (loc, e)) {a : Nat} (ha : e.ptr = some a) : SafeS (R.st n).m p a := by
  obtain ⟨p', hp', hpi, -⟩ := R.run_pin h
  rw [hp] at hp'
  cases hp'
  obtain ⟨c0, h0, rfl⟩ := R.running h
  have hc' : (c0.pc.ren R.address).cas = some (loc, e) := hc
  rw [cas_ren, Option.map_eq_some_iff] at hc'
  obtain ⟨⟨l0, e0⟩, g1, g2⟩ := hc'
  simp only [Prod.mk.injEq] at g2
  obtain ⟨rfl, rfl⟩ := g2
  simp only [Word.ren_ptr, Option.map_eq_some_iff] at ha
  obtain ⟨b, hb, rfl⟩ := ha
  exact R.safe_of_held hp hpi ((R.fresh.cas_held h0 g1).2 b hb)

theorem RExec.newOK (R : RExec cfg) {n t : Nat} {c : Call K P} (h : ((R.st n).thr t).run = some c) : c.pc.newOK := by
  obtain ⟨c0, h0, rfl⟩ := R.running h
  have hi := R.fresh.run_pcinv h0
  show (c0.pc.ren R.address).newOK
  cases hpc : c0.pc with
  | travCas st hash mode shift cur parent node new kind =>
    simp only [PCInv, hpc] at hi
    obtain ⟨d, -, hat, hcas⟩ := hi
    cases hcas with
    | fresh p hst => exact ⟨p, rfl⟩
    | split a d0 hh => trivial
    | replace a p items hst hh => exact ⟨_, p, rfl⟩
  | _ => trivial

theorem access_ren {ρ : Nat → Nat} (pc : PC K P) : (pc.ren ρ).access .code = (pc.access .code).map (fun x => (x.1.ren ρ, x.2)) := by
  cases pc with
  | iterNext lv out =>
    cases lv with
    | nil => rfl
    | cons x rest =>
      obtain ⟨w, idx⟩ := x
      simp only [PC.ren, renIter, List.map_cons, PC.access, Word.ren_ptr, Word.ren_data]
      cases w.ptr with
      | none => rfl
      | some a =>
        simp only [Option.map]
        by_cases hd : w.data = true
        · simp [hd]
        · by_cases hi : idx < 16
          · simp [hd, hi, Loc.ren]
          · simp [hd, hi]
  | count d ref parent child rest i cnt => simp only [PC.ren, PC.access, Word.ren_ptr]; cases child.ptr <;> rfl
  | prune parent child i acc k => simp only [PC.ren, PC.access, Word.ren_ptr]; cases child.ptr <;> rfl
  | _ => rfl

theorem top_ren {ρ : Nat → Nat} (pc : PC K P) : (pc.ren ρ).top = pc.top.ren ρ := by
  cases pc with
  | iterNext lv out => cases lv <;> rfl
  | _ => rfl

/-- What the access of a call finds is protected by the guard. -/
theorem RExec.found_safe (R : RExec cfg) {n t p : Nat} {c : Call K P} (h : ((R.st n).thr t).run = some c) (hp : ((R.st n).thr t).pin = some p) {w : Word}
    (hw : (∃ loc o, c.pc.access .code = some (loc, o) ∧ (R.st n).m.read loc = some w) ∨ c.pc.access .code = none ∧ w = c.pc.top) {a : Nat} (ha : w.ptr = some a) :
    SafeS (R.st n).m p a := by
  obtain ⟨p', hp', hpi, -⟩ := R.run_pin h
  rw [hp] at hp'
  cases hp'
  obtain ⟨c0, h0, rfl⟩ := R.running h
  obtain ⟨H, hH, -⟩ := C38_honest_is_special_case R.fresh
  have hc' : ((H.st n).thr t).run = some c0 := by rw [hH]; exact h0
  obtain ⟨-, -, hpc⟩ := ((H.inv n).thr t).run c0 hc'
  rcases hw with ⟨loc, o, h1, h2⟩ | ⟨h1, rfl⟩
  · have h1' : (c0.pc.ren R.address).access .code = some (loc, o) := h1
    rw [access_ren, Option.map_eq_some_iff] at h1'
    obtain ⟨⟨l0, o0⟩, g1, g2⟩ := h1'
    simp only [Prod.mk.injEq] at g2
    obtain ⟨rfl, rfl⟩ := g2
    obtain ⟨q, hq⟩ := hpc.cell_loc (loc := l0) (by simp [PC.cell, g1])
    obtain ⟨w0, e1, -, e3, -⟩ := ((H.inv n).ctx hc').read hq
    rw [hH] at e1 e3
    have := (R.rel n).mem.read e1
    rw [this, Option.some.injEq] at h2
    subst h2
    simp only [Word.ren_ptr, Option.map_eq_some_iff] at ha
    obtain ⟨b, hb, rfl⟩ := ha
    exact R.safe_of_held hp hpi (e3 b hb)
  · have ht : (Call.ren R.address c0).pc.top = c0.pc.top.ren R.address := top_ren _
    rw [ht] at ha
    simp only [Word.ren_ptr, Option.map_eq_some_iff] at ha
    obtain ⟨b, hb, rfl⟩ := ha
    refine R.safe_of_held hp hpi ?_
    cases hq : c0.pc with
    | iterNext lv out =>
      cases lv with
      | nil => simp [hq, PC.top, Word.null] at hb
      | cons y rest =>
        obtain ⟨w, idx⟩ := y
        rw [hq] at hpc hb
        obtain ⟨⟨⟨q, hw, hh, -⟩, -⟩, -⟩ := hpc
        have := hh b hb
        rw [hH] at this
        exact this
    | _ => simp [hq, PC.top, Word.null] at hb

end Contrie
