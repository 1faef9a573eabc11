import Verif.Proof.ReuseCoh
/-
Weak memory with reuse of memory: every execution is, but for the names of the nodes, an execution without reuse.
-/
set_option linter.unusedSectionVars false
set_option linter.unusedSimpArgs false
namespace Contrie
variable {K P : Type} [DecidableEq K] {cfg : Config K P} {ρ : Nat → Nat}

structure CThRel (ρ : Nat → Nat) (tha thc : CThread K P) : Prop where
  pin : thc.pin = tha.pin
  refs : thc.refs = tha.refs.map ρ
  run : thc.run = tha.run.map (Call.ren ρ)
  failed : thc.failed = tha.failed
  /-- nobody knows less about an address than about a node at it -/
  view : ∀ ℓ, tha.view ℓ ≤ thc.view (ℓ.ren ρ)

/-- The states agree but for the names of the nodes; so did those before them. -/
structure CStRel (ρ : Nat → Nat) (sa sc : CState K P) : Prop where
  mem : MemRel ρ sa.m sc.m
  thr : ∀ t, CThRel ρ (sa.thr t) (sc.thr t)
  viewle : ∀ t ℓ, (sc.thr t).view ℓ ≤ sc.m.clock
  past : ∀ τ, τ < sa.m.clock → MemRel ρ (sa.past τ) (sc.past τ)
  pastView : ∀ τ, τ < sa.m.clock → ∀ t ℓ, sa.pastView τ t ℓ ≤ sc.pastView τ t (ℓ.ren ρ)
  pastle : ∀ τ, τ < sa.m.clock → ∀ t ℓ, sc.pastView τ t ℓ ≤ sc.m.clock

variable {sa sc : CState K P}

theorem CStRel.next (h : CStRel ρ sa sc) {ma mc : Mem P} (hm : MemRel ρ ma mc) (hc : ma.clock = sa.m.clock) (t : Nat) {tha thc : CThread K P} (hth : CThRel ρ tha thc)
    (hv : ∀ ℓ, thc.view ℓ ≤ sc.m.clock + 1) : CStRel ρ (sa.next ma t tha) (sc.next mc t thc) := by
  have hcl := h.mem.clock
  have hcc : mc.clock = sc.m.clock := by rw [hm.clock, hc, hcl]
  have hpast : ∀ τ, τ < (sa.next ma t tha).m.clock → τ = sa.m.clock ∨ τ ≠ sa.m.clock ∧ τ ≠ sc.m.clock ∧ τ < sa.m.clock := by
    intro τ hτ
    have : τ < ma.clock + 1 := hτ
    omega
  refine ⟨hm.bump, ?_, ?_, ?_, ?_, ?_⟩
  · intro u
    simp only [CState.next]
    by_cases e : u = t
    · subst e; simpa using hth
    · rw [upd_other _ _ e, upd_other _ _ e]; exact h.thr u
  · intro u ℓ
    simp only [CState.next, Mem.bump, hcc]
    by_cases e : u = t
    · subst e; simpa using hv ℓ
    · rw [upd_other _ _ e]; have := h.viewle u ℓ; omega
  · intro τ hτ
    simp only [CState.next, hcl]
    rcases hpast τ hτ with rfl | ⟨e1, e2, e3⟩
    · simpa using h.mem
    · rw [upd_other _ _ e1, upd_other _ _ e1]; exact h.past τ e3
  · intro τ hτ u ℓ
    simp only [CState.next, hcl]
    rcases hpast τ hτ with rfl | ⟨e1, e2, e3⟩
    · simpa using (h.thr u).view ℓ
    · rw [upd_other _ _ e1, upd_other _ _ e1]; exact h.pastView τ e3 u ℓ
  · intro τ hτ u ℓ
    simp only [CState.next, hcl, Mem.bump, hcc]
    rcases hpast τ hτ with rfl | ⟨e1, e2, e3⟩
    · have := h.viewle u ℓ; simp; omega
    · rw [upd_other _ _ e1]; have := h.pastle τ e3 u ℓ; omega

theorem CStRel.offer (h : CStRel ρ sa sc) {x : Nat} (hx : sc.m.deref x = none) : CStRel ρ sa (sc.offer x) :=
  ⟨h.mem.offer hx, h.thr, h.viewle, h.past, h.pastView, h.pastle⟩

theorem CStRel.memAt (h : CStRel ρ sa sc) {τ : Nat} (hτ : τ ≤ sa.m.clock) : MemRel ρ (sa.memAt τ) (sc.memAt τ) := by
  simp only [CState.memAt, h.mem.clock]
  split
  · exact h.mem
  · exact h.past τ (by omega)

theorem CStRel.viewAt (h : CStRel ρ sa sc) {τ : Nat} (hτ : τ ≤ sa.m.clock) (t : Nat) (ℓ : Loc) : sa.viewAt τ t ℓ ≤ sc.viewAt τ t (ℓ.ren ρ) := by
  simp only [CState.viewAt, h.mem.clock]
  split
  · exact (h.thr t).view ℓ
  · exact h.pastView τ (by omega) t ℓ

theorem CStRel.viewAtle (h : CStRel ρ sa sc) {τ : Nat} (hτ : τ ≤ sa.m.clock) (t : Nat) (ℓ : Loc) : sc.viewAt τ t ℓ ≤ sc.m.clock := by
  simp only [CState.viewAt]
  split
  · exact h.viewle t ℓ
  · next hne => rw [h.mem.clock] at hne; exact h.pastle τ (by omega) t ℓ

open Classical in
/-- What the step is in the execution without reuse. -/
noncomputable def CLabel.unre (ρ : Nat → Nat) (sa : CState K P) : CLabel K P → CLabel K P
  | .free x => if h : ∃ a, sa.m.deref a ≠ none ∧ ρ a = x then .free h.choose else .idle
  | l => l

theorem read_write_same {m : Mem P} {ℓ : Loc} (h : m.read ℓ ≠ none) (w : Word) : (m.write w ℓ).read ℓ = some w := by
  cases ℓ with
  | root => rfl
  | slot a i =>
    simp only [Mem.read] at h
    cases hd : m.deref a with
    | none => simp [hd] at h
    | some nd =>
      cases nd with
      | data l => simp [hd] at h
      | inner c q =>
        obtain ⟨h1, h2⟩ := deref_some.mp hd
        simp [Mem.read, Mem.write, h2, Mem.deref, h1]

theorem capply_ren {tha thc : CThread K P} (h : CThRel ρ tha thc) (c : Call K P) (nx : Next K P) : CThRel ρ (tha.apply c nx) (thc.apply (c.ren ρ) (nx.ren ρ)) := by
  cases nx with
  | goto pc ran => exact ⟨h.pin, h.refs, rfl, h.failed, h.view⟩
  | ret r refs => exact ⟨h.pin, by simp [CThread.apply, Next.ren, h.refs], rfl, h.failed, h.view⟩
  | fail f => exact ⟨h.pin, h.refs, rfl, rfl, h.view⟩

/-- A step of a call. -/
theorem ctick_ren (E : CExec cfg) (hb : Blank sc.m) (h : CStRel ρ (E.st E.len) sc) {t : Nat} {weak : Bool} {τ : Nat} {c : Call K P}
    (hc : ((E.st E.len).thr t).run = some c) (hen : (CLabel.tick t weak τ : CLabel K P).enabled sc)
    (hstale : ∀ a i o, c.pc.access .code = some (.slot a i, o) → (E.st E.len).m.deref a ≠ none → τ < E.len → (E.st τ).m.mem a ≠ none)
    (hρ : (if τ = E.len then (tick cfg (sc.seen (c.pc.ren ρ) τ) weak (c.pc.ren ρ)).1 else sc.m).next ≠ sc.m.next → ρ (E.st E.len).m.next = sc.m.next) :
    (CLabel.tick t weak τ : CLabel K P).enabled (E.st E.len) ∧
    (tick cfg (sc.seen (c.pc.ren ρ) τ) weak (c.pc.ren ρ)).2 = (tick cfg ((E.st E.len).seen c.pc τ) weak c.pc).2.ren ρ ∧
    MemRel ρ (if τ = E.len then (tick cfg ((E.st E.len).seen c.pc τ) weak c.pc).1 else (E.st E.len).m)
      (if τ = E.len then (tick cfg (sc.seen (c.pc.ren ρ) τ) weak (c.pc.ren ρ)).1 else sc.m) ∧
    SameAlloc (E.st E.len).m (if τ = E.len then (tick cfg ((E.st E.len).seen c.pc τ) weak c.pc).1 else (E.st E.len).m)
      sc.m (if τ = E.len then (tick cfg (sc.seen (c.pc.ren ρ) τ) weak (c.pc.ren ρ)).1 else sc.m) ∧
    (∀ ℓ, c.pc.look ((E.st E.len).seen c.pc τ) weak τ E.len ((E.st E.len).thr t).view ℓ ≤
      (c.pc.ren ρ).look (sc.seen (c.pc.ren ρ) τ) weak τ E.len (sc.thr t).view (ℓ.ren ρ)) ∧
    (∀ ℓ, (c.pc.ren ρ).look (sc.seen (c.pc.ren ρ) τ) weak τ E.len (sc.thr t).view ℓ ≤ E.len + 1) := by
  have hbase := E.base (Nat.le_refl _)
  have hcl : (E.st E.len).m.clock = E.len := hbase.clock
  have hclc : sc.m.clock = E.len := by rw [h.mem.clock, hcl]
  have hcc : (sc.thr t).run = some (c.ren ρ) := by rw [(h.thr t).run, hc]; rfl
  have hba := E.blank (Nat.le_refl E.len)
  cases hacc : c.pc.access .code with
  | none =>
    have hacc' : (c.pc.ren ρ).access .code = none := by rw [access_renamed, hacc]; rfl
    have hτ : τ = E.len := by
      rcases hen with e | ⟨-, c', ℓ', o', h2, h3, -⟩
      · rw [← hclc]; exact e
      · rw [hcc] at h2
        cases h2
        rw [show (c.ren ρ).pc = c.pc.ren ρ from rfl, hacc'] at h3
        cases h3
    subst hτ
    have hen' : (CLabel.tick t weak E.len : CLabel K P).enabled (E.st E.len) := .inl hcl.symm
    have hsa : (E.st E.len).seen c.pc E.len = (E.st E.len).m := by simp [CState.seen, hacc, Mem.see]
    have hsc : sc.seen (c.pc.ren ρ) E.len = sc.m := by simp [CState.seen, hacc', Mem.see]
    have hok := E.tick_ok hc weak hen'
    rw [hsa] at hok ⊢
    rw [hsc] at hρ ⊢
    simp only [if_true] at hρ ⊢
    have hnc : ∀ l e, c.pc.cas ≠ some (l, e) := by
      intro l e he
      have := cas_accesses he
      rw [hacc] at this; cases this
    obtain ⟨g1, g2, g3⟩ := tick_ren h.mem hba hb hok (fun l e w he => absurd he (hnc l e)) (fun l e a he => absurd he (hnc l e)) hρ
    refine ⟨hen', g1, g2, g3, ?_, ?_⟩
    · intro ℓ; simp only [PC.look, hacc, hacc']; exact (h.thr t).view ℓ
    · intro ℓ; simp only [PC.look, hacc']; have := h.viewle t ℓ; omega
  | some x =>
    obtain ⟨ℓ, o⟩ := x
    have hacc' : (c.pc.ren ρ).access .code = some (ℓ.ren ρ, o) := by rw [access_renamed, hacc]; rfl
    have hτle : τ ≤ E.len ∧ (sc.thr t).view (ℓ.ren ρ) ≤ τ := by
      rcases hen with e | ⟨h1, c', ℓ', o', h2, h3, h4, h5, h6⟩
      · rw [hclc] at e; subst e
        exact ⟨Nat.le_refl _, by have := h.viewle t (ℓ.ren ρ); omega⟩
      · rw [hcc] at h2
        cases h2
        rw [show (c.ren ρ).pc = c.pc.ren ρ from rfl, hacc'] at h3
        cases h3
        exact ⟨by omega, h5⟩
    obtain ⟨hτ, hvτ⟩ := hτle
    have hvτ' : E.V t E.len ℓ ≤ τ := Nat.le_trans ((h.thr t).view ℓ) hvτ
    -- readable now
    have hnow : (E.st E.len).m.read ℓ ≠ none := by
      cases ℓ with
      | root => simp [Mem.read]
      | slot a i =>
        obtain ⟨cs, q, hd⟩ := C40_access E (Nat.le_refl _) hc hacc
        simp [Mem.read, hd]
    have hmemAt : (E.st E.len).memAt τ = (E.st τ).m := hbase.memAt E hτ
    have hrelτ : MemRel ρ (E.st τ).m (sc.memAt τ) := by rw [← hmemAt]; exact h.memAt (by omega)
    have hthen : (E.st τ).m.read ℓ ≠ none := by
      by_cases e : τ = E.len
      · rw [e]; exact hnow
      · cases ℓ with
        | root => simp [Mem.read]
        | slot a i =>
          have hr : (sc.memAt τ).read (.slot (ρ a) i) ≠ none := by
            rcases hen with e' | ⟨h1, c', ℓ', o', h2, h3, h4, h5, h6⟩
            · rw [hclc] at e'; exact absurd e' e
            · rw [hcc] at h2
              cases h2
              rw [show (c.ren ρ).pc = c.pc.ren ρ from rfl, hacc'] at h3
              cases h3
              exact h4
          have hlive := E.held_live (Nat.le_refl _) hc (access_holds hacc rfl)
          have hmem := hstale a i o hacc hlive (by omega)
          have hfr : (E.st τ).m.freed a = false := E.freed_mono hτ (Nat.le_refl _) (by
            obtain ⟨nd, hnd⟩ := Option.ne_none_iff_exists'.mp hlive
            exact (deref_some.mp hnd).1)
          obtain ⟨nd, hnd⟩ := Option.ne_none_iff_exists'.mp hmem
          have hd : (E.st τ).m.deref a = some nd := deref_some.mpr ⟨hfr, hnd⟩
          have := (hrelτ.live a nd hd).1
          cases nd with
          | inner cs q => simp [Mem.read, hd]
          | data l => simp [Mem.read, this, Node.ren] at hr
    obtain ⟨w, hw⟩ := Option.ne_none_iff_exists'.mp hthen
    obtain ⟨w0, hw0⟩ := Option.ne_none_iff_exists'.mp hnow
    have hwc : (sc.memAt τ).read (ℓ.ren ρ) = some (w.ren ρ) := hrelτ.read hw
    have hsa : (E.st E.len).seen c.pc τ = (E.st E.len).m.write w ℓ := by simp [CState.seen, hacc, hmemAt, hw, Mem.see]
    have hsc : sc.seen (c.pc.ren ρ) τ = sc.m.write (w.ren ρ) (ℓ.ren ρ) := by simp [CState.seen, hacc', hwc, Mem.see]
    have hsee : MemRel ρ ((E.st E.len).m.write w ℓ) (sc.m.write (w.ren ρ) (ℓ.ren ρ)) := h.mem.write hw0 w
    have hrs : ((E.st E.len).m.write w ℓ).read ℓ = some w := read_write_same hnow w
    have hcas : ∀ l e w', c.pc.cas = some (l, e) → ((E.st E.len).m.write w ℓ).read l = some w' → (w'.ren ρ = e.ren ρ ↔ w' = e) := by
      intro l e w' he hr
      have := cas_accesses he
      rw [hacc] at this
      cases this
      rw [hrs] at hr
      cases hr
      refine ⟨?_, fun x => by rw [x]⟩
      intro hx
      have h1 : w.cond = e.cond := by have := congrArg Word.cond hx; simpa using this
      have h2 : w.data = e.data := by have := congrArg Word.data hx; simpa using this
      have h3 : w.ptr.map ρ = e.ptr.map ρ := congrArg Word.ptr hx
      have h4 : w.ptr = e.ptr := by
        cases hwp : w.ptr with
        | none => rw [hwp] at h3; cases hep : e.ptr with
          | none => rfl
          | some b => rw [hep] at h3; cases h3
        | some a =>
          rw [hwp] at h3
          cases hep : e.ptr with
          | none => rw [hep] at h3; cases h3
          | some b =>
            rw [hep] at h3
            simp only [Option.map, Option.some.injEq] at h3
            rw [h.mem.inj a b (E.sight (Nat.le_refl _) hc hacc hτ hvτ' hw hwp) (E.held_live (Nat.le_refl _) hc (cas_holds_it he hep)) h3]
      cases w; cases e
      simp_all
    have hlive : ∀ l e a, c.pc.cas = some (l, e) → e.ptr = some a → ((E.st E.len).m.write w ℓ).deref a ≠ none := by
      intro l e a he hp
      rw [Ne, deref_write]
      exact E.held_live (Nat.le_refl _) hc (cas_holds_it he hp)
    have hwr : (c.pc.ren ρ).writes (sc.seen (c.pc.ren ρ) τ) weak = c.pc.writes ((E.st E.len).seen c.pc τ) weak := by
      rw [hsa, hsc]
      refine writes_renamed hsee weak ?_ hcas
      intro l o' hl
      rw [hacc] at hl
      cases hl
      rw [hrs]; simp
    have hen' : (CLabel.tick t weak τ : CLabel K P).enabled (E.st E.len) := by
      rcases hen with e | ⟨h1, c', ℓ', o', h2, h3, h4, h5, h6⟩
      · exact .inl (by rw [hcl, ← hclc]; exact e)
      · refine .inr ⟨by omega, c, ℓ, o, hc, hacc, by rw [hmemAt, hw]; simp, hvτ', ?_⟩
        rw [hcc] at h2
        cases h2
        rw [← hwr]; exact h6
    have hquiet : τ ≠ E.len → (tick cfg (sc.seen (c.pc.ren ρ) τ) weak (c.pc.ren ρ)).1 = sc.seen (c.pc.ren ρ) τ := by
      intro e
      rcases hen with e' | ⟨h1, c', ℓ', o', h2, h3, h4, h5, h6⟩
      · rw [hclc] at e'; exact absurd e' e
      · rw [hcc] at h2
        cases h2
        exact tick_quiet cfg _ weak h6
    have hok := E.tick_ok hc weak hen'
    have hbla : Blank ((E.st E.len).m.write w ℓ) := hba.see (some (ℓ, w))
    have hblc : Blank (sc.m.write (w.ren ρ) (ℓ.ren ρ)) := hb.see (some (ℓ.ren ρ, w.ren ρ))
    have n1 : ((E.st E.len).m.write w ℓ).next = (E.st E.len).m.next := see_next _ (some (ℓ, w))
    have n2 : (sc.m.write (w.ren ρ) (ℓ.ren ρ)).next = sc.m.next := see_next _ (some (ℓ.ren ρ, w.ren ρ))
    obtain ⟨g1, g2, g3⟩ := tick_ren hsee hbla hblc (weak := weak) (pc := c.pc) (by rw [hsa] at hok; exact hok) hcas hlive (by
      intro hne
      rw [n1, n2]
      rw [n2] at hne
      by_cases e : τ = E.len
      · apply hρ
        rw [if_pos e, hsc]; exact hne
      · have := hquiet e
        rw [hsc] at this
        rw [this, n2] at hne
        exact absurd rfl hne)
    refine ⟨hen', by rw [hsa, hsc]; exact g1, ?_, ?_, ?_, ?_⟩
    · rw [hsa, hsc]
      by_cases e : τ = E.len
      · rw [if_pos e, if_pos e]; exact g2
      · rw [if_neg e, if_neg e]; exact h.mem
    · rw [hsa, hsc]
      by_cases e : τ = E.len
      · rw [if_pos e, if_pos e]
        simp only [SameAlloc, n1, n2] at g3
        exact g3
      · rw [if_neg e, if_neg e]; exact .inl ⟨rfl, rfl⟩
    · intro ℓ'
      simp only [PC.look, hacc, hacc', hwr]
      by_cases e : ℓ' = ℓ
      · subst e; simp
      · rw [upd_other _ _ e]
        have hv := (h.thr t).view ℓ'
        by_cases e2 : ℓ'.ren ρ = ℓ.ren ρ
        · rw [e2] at hv ⊢
          rw [upd_same]
          split <;> omega
        · rw [upd_other _ _ e2]; exact hv
    · intro ℓ'
      simp only [PC.look, hacc']
      by_cases e2 : ℓ' = ℓ.ren ρ
      · rw [e2, upd_same]
        split <;> omega
      · rw [upd_other _ _ e2]
        have := h.viewle t ℓ'; omega

theorem cstep_ren (E : CExec cfg) {sc' : CState K P} {x : Nat} {l : CLabel K P} {e : Option (Event K P)} (h : CStRel ρ (E.st E.len) sc)
    (hs : crstep cfg sc x l = some (sc', e)) (hen : l.enabled (sc.offer x)) (hwf : l.WF cfg) (hρ : sc'.m.next ≠ x → ρ (E.st E.len).m.next = x)
    (hstale : ∀ t weak τ c a i o, l = .tick t weak τ → ((E.st E.len).thr t).run = some c → c.pc.access .code = some (.slot a i, o) → (E.st E.len).m.deref a ≠ none →
      τ < E.len → (E.st τ).m.mem a ≠ none) :
    ∃ sa', cstep cfg (E.st E.len) (l.unre ρ (E.st E.len)) = some (sa', e) ∧ (l.unre ρ (E.st E.len)).enabled (E.st E.len) ∧ (l.unre ρ (E.st E.len)).WF cfg ∧
      CStRel ρ sa' sc' ∧ ((sa'.m.next = (E.st E.len).m.next ∧ sc'.m.next = x) ∨ (sa'.m.next = (E.st E.len).m.next + 1 ∧ sc'.m.next = x + 1)) := by
  simp only [crstep] at hs
  split at hs
  · cases hs
  · next hu =>
    have hx : sc.m.deref x = none := by simpa [Mem.inUse] using hu
    have h0 := h.offer hx
    have hb : Blank (sc.offer x).m := Mem.offer_blank sc.m x
    have hnx : (sc.offer x).m.next = x := rfl
    generalize sc.offer x = so at *
    have hbase := E.base (Nat.le_refl _)
    have hcl : (E.st E.len).m.clock = E.len := hbase.clock
    have hclc : so.m.clock = E.len := by rw [h0.mem.clock, hcl]
    have hth := h0.thr
    have hpin : ∀ t, (so.thr t).pin = ((E.st E.len).thr t).pin := fun t => (hth t).pin
    have hfail : ∀ t, (so.thr t).failed = ((E.st E.len).thr t).failed := fun t => (hth t).failed
    have hrun : ∀ t, (so.thr t).run = ((E.st E.len).thr t).run.map (Call.ren ρ) := fun t => (hth t).run
    have hvle : ∀ t ℓ, (so.thr t).view ℓ ≤ so.m.clock + 1 := fun t ℓ => by have := h0.viewle t ℓ; omega
    cases l with
    | pin t =>
      simp only [cstep, CLabel.unre, hpin t, hfail t] at hs ⊢
      cases hp : ((E.st E.len).thr t).pin with
      | some p => simp [hp] at hs
      | none =>
        cases hf : ((E.st E.len).thr t).failed with
        | some f => simp [hp, hf] at hs
        | none =>
          simp only [hp, hf, Option.some.injEq, Prod.mk.injEq] at hs
          obtain ⟨rfl, rfl⟩ := hs
          refine ⟨_, rfl, trivial, trivial, h0.next h0.mem rfl t ?_ (hvle t), .inl ⟨rfl, hnx⟩⟩
          exact ⟨by simp [hclc, hcl], rfl, (hth t).run, rfl, (hth t).view⟩
    | unpin t =>
      simp only [cstep, CLabel.unre, hpin t, hfail t, hrun t] at hs ⊢
      cases hp : ((E.st E.len).thr t).pin with
      | none => simp [hp] at hs
      | some p =>
        cases hr : ((E.st E.len).thr t).run with
        | some c => simp [hp, hr] at hs
        | none =>
          cases hf : ((E.st E.len).thr t).failed with
          | some f => simp [hp, hf, hr] at hs
          | none =>
            simp only [hp, hf, hr, Option.map, Option.some.injEq, Prod.mk.injEq] at hs
            obtain ⟨rfl, rfl⟩ := hs
            refine ⟨_, rfl, trivial, trivial, h0.next h0.mem rfl t ?_ (hvle t), .inl ⟨rfl, hnx⟩⟩
            exact ⟨rfl, rfl, rfl, rfl, (hth t).view⟩
    | call t r =>
      simp only [cstep, CLabel.unre, hpin t, hfail t, hrun t] at hs ⊢
      cases hp : ((E.st E.len).thr t).pin with
      | none => simp [hp] at hs
      | some p =>
        cases hr : ((E.st E.len).thr t).run with
        | some c => simp [hp, hr] at hs
        | none =>
          cases hf : ((E.st E.len).thr t).failed with
          | some f => simp [hp, hf, hr] at hs
          | none =>
            simp only [hp, hf, hr, Option.map, Option.some.injEq, Prod.mk.injEq, hclc] at hs
            obtain ⟨rfl, rfl⟩ := hs
            refine ⟨_, by rw [hcl], trivial, hwf, h0.next h0.mem rfl t ?_ (hvle t), .inl ⟨rfl, hnx⟩⟩
            exact ⟨rfl, (hth t).refs, by simp [Call.ren, startPC_ren, hcl], rfl, (hth t).view⟩
    | tick t weak τ =>
      simp only [cstep, CLabel.unre, hrun t] at hs ⊢
      cases hr : ((E.st E.len).thr t).run with
      | none => simp [hr] at hs
      | some c =>
        simp only [hr, Option.map, Option.some.injEq, Prod.mk.injEq] at hs
        obtain ⟨rfl, rfl⟩ := hs
        rw [show (Call.ren ρ c).pc = c.pc.ren ρ from rfl] at *
        simp only [hclc] at hρ ⊢
        obtain ⟨g0, g1, g2, g3, g4, g5⟩ := ctick_ren E hb h0 hr hen (fun a i o => hstale t weak τ c a i o rfl hr) (by
          intro hne
          rw [hnx] at hne ⊢
          exact hρ hne)
        rw [hcl]
        refine ⟨_, by rw [g1, event_ren]; rfl, g0, trivial, ?_, ?_⟩
        · rw [g1]
          refine h0.next g2 ?_ t (capply_ren ?_ c _) ?_
          · split
            · rw [tick_clock]; exact see_clock _ _
            · rfl
          · exact ⟨(hth t).pin, (hth t).refs, rfl, (hth t).failed, g4⟩
          · intro ℓ; rw [apply_view, hclc]; exact g5 ℓ
        · simp only [SameAlloc, hnx] at g3
          exact g3
    | abort t =>
      simp only [cstep, CLabel.unre, hrun t] at hs ⊢
      cases hr : ((E.st E.len).thr t).run with
      | none => simp [hr] at hs
      | some c =>
        simp only [hr, Option.map, Option.some.injEq, Prod.mk.injEq] at hs
        obtain ⟨rfl, rfl⟩ := hs
        refine ⟨_, rfl, trivial, trivial, h0.next h0.mem rfl t ?_ (hvle t), .inl ⟨rfl, hnx⟩⟩
        exact ⟨rfl, rfl, rfl, (hth t).failed, (hth t).view⟩
    | sync t t' τ =>
      have hτ : τ ≤ (E.st E.len).m.clock := by
        have : τ ≤ so.m.clock := hen
        omega
      simp only [cstep, CLabel.unre, Option.some.injEq, Prod.mk.injEq] at hs ⊢
      obtain ⟨rfl, rfl⟩ := hs
      refine ⟨_, ⟨rfl, rfl⟩, hτ, trivial, h0.next h0.mem rfl t ?_ ?_, .inl ⟨rfl, hnx⟩⟩
      · refine ⟨(hth t).pin, (hth t).refs, (hth t).run, (hth t).failed, ?_⟩
        intro ℓ
        have h1 := (hth t).view ℓ
        have h2 := h0.viewAt hτ t' ℓ
        simp only; omega
      · intro ℓ
        have h1 := h0.viewle t ℓ
        have h2 := h0.viewAtle hτ t' ℓ
        simp only; omega
    | free y =>
      simp only [cstep, Option.some.injEq, Prod.mk.injEq] at hs
      obtain ⟨rfl, rfl⟩ := hs
      simp only [CLabel.unre]
      split
      · next hy =>
        have hsp := hy.choose_spec
        generalize hy.choose = a at hsp ⊢
        obtain ⟨h1, rfl⟩ := hsp
        exact ⟨_, rfl, trivial, trivial, h0.next (h0.mem.free h1) rfl 0 (hth 0) (hvle 0), .inl ⟨rfl, hnx⟩⟩
      · next hy =>
        refine ⟨_, rfl, trivial, trivial, h0.next (h0.mem.free_none ?_) rfl 0 (hth 0) (hvle 0), .inl ⟨rfl, hnx⟩⟩
        cases hd : so.m.deref y with
        | none => rfl
        | some nd => exact absurd (h0.mem.only y (by rw [hd]; simp)) hy
    | idle =>
      simp only [cstep, Option.some.injEq, Prod.mk.injEq] at hs
      obtain ⟨rfl, rfl⟩ := hs
      exact ⟨_, rfl, trivial, trivial, h0.next h0.mem rfl 0 (hth 0) (hvle 0), .inl ⟨rfl, hnx⟩⟩

end Contrie
