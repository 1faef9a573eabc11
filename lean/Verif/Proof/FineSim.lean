import Verif.Proof.FineMem
/-
Every execution of the fine machine is, but for when things happen within a step, one of the machine with reuse of memory.
-/
set_option linter.unusedSectionVars false
set_option linter.unusedSimpArgs false
namespace Contrie
variable {K P : Type} [DecidableEq K] {cfg : Config K P}

/-! ### The coarse execution -/

/-- What step `n` is in the coarse execution, whose state is `s`. -/
def FExec.coarseLab (F : FExec cfg) (n : Nat) (s : State K P) : Label K P :=
  match F.lab n with
  | .tick t w => match ((F.st n).thr t).got with
    | none => .tick t w
    | some _ => .idle
  | .abort t => match (s.thr t).run with
    | none => .unpin t
    | some _ => .abort t
  | .free a => if s.m.inUse a then .free a else .idle
  | l => l

/-- The address offered in the coarse execution. -/
def FExec.cAddr (F : FExec cfg) (n : Nat) : Nat :=
  match F.lab n with
  | .tick t _ => match ((F.st n).thr t).got with
    | none => ((F.st n).thr t).own.getD (F.addr n)
    | some _ => F.addr n
  | _ => F.addr n

def FExec.cSt (F : FExec cfg) : Nat → State K P
  | 0 => State.init
  | n + 1 => ((rstep cfg (F.cSt n) (F.cAddr n) (F.coarseLab n (F.cSt n))).map Prod.fst).getD State.init

def FExec.cLab (F : FExec cfg) (n : Nat) : Label K P := F.coarseLab n (F.cSt n)

def FExec.cEv (F : FExec cfg) (n : Nat) : Option (Event K P) := ((rstep cfg (F.cSt n) (F.cAddr n) (F.cLab n)).map Prod.snd).getD none

/-! ### The relation of the sessions -/

/-- Session `t` has made its access in step `q` and has not done the rest; in the coarse execution it has. -/
structure Pending (F : FExec cfg) (n t : Nat) (mr : Mem P) (rt : Thread K P) (w : Word) (ok : Bool) (c : Call K P) (p q : Nat) (nx : Next K P) : Prop where
  run : ((F.st n).thr t).th.run = some c
  pin : ((F.st n).thr t).th.pin = some p
  le : p ≤ n
  thr : rt = ((F.st n).thr t).th.apply c nx
  nok : nx.ok
  next : ∀ m, Sees mr m w → (ok = true → Sees mr m ⟨((F.st n).thr t).own, false, true⟩) → c.pc.fineNext cfg m w ok ((F.st n).thr t).own = nx
  word : ∀ a, w.ptr = some a → SafeS mr p a
  mine : ok = true → ∀ a, ((F.st n).thr t).own = some a → SafeS mr p a
  unl : ok = true → ∀ a, c.pc.unlinks = some a → SafeS mr p a ∧ ∃ τ, mr.retired a = some τ
  lt : q < n
  ev : F.cEv q = nx.event c.inv
  lab : ∃ weak, F.lab q = .tick t weak
  between : ∀ i, q < i → i ≤ n → ((F.st i).thr t).got ≠ none

def TRel (F : FExec cfg) (n t : Nat) (mr : Mem P) (rt : Thread K P) : Prop :=
  (((F.st n).thr t).got = none → rt = ((F.st n).thr t).th ∧ (((F.st n).thr t).th.run = none → ((F.st n).thr t).own = none) ∧
    ∀ c, ((F.st n).thr t).th.run = some c → ((F.st n).thr t).own.isSome = (c.pc.builds mr).isSome) ∧
  (∀ w ok, ((F.st n).thr t).got = some (w, ok) → ∃ c p q nx, Pending F n t mr rt w ok c p q nx)

theorem thread_apply_pin (th : Thread K P) (c : Call K P) (nx : Next K P) : (th.apply c nx).pin = th.pin := by cases nx <;> rfl

theorem apply_failed (th : Thread K P) (c : Call K P) {nx : Next K P} (h : nx.ok) : (th.apply c nx).failed = th.failed := by
  cases nx with
  | fail f => exact h.elim
  | _ => rfl

theorem TRel.pin {F : FExec cfg} {n t : Nat} {mr : Mem P} {rt : Thread K P} (h : TRel F n t mr rt) : rt.pin = ((F.st n).thr t).th.pin := by
  cases hg : ((F.st n).thr t).got with
  | none => rw [(h.1 hg).1]
  | some x =>
    obtain ⟨w, ok⟩ := x
    obtain ⟨c, p, q, nx, hp⟩ := h.2 w ok hg
    rw [hp.thr, thread_apply_pin]

theorem TRel.failed {F : FExec cfg} {n t : Nat} {mr : Mem P} {rt : Thread K P} (h : TRel F n t mr rt) : rt.failed = ((F.st n).thr t).th.failed := by
  cases hg : ((F.st n).thr t).got with
  | none => rw [(h.1 hg).1]
  | some x =>
    obtain ⟨w, ok⟩ := x
    obtain ⟨c, p, q, nx, hp⟩ := h.2 w ok hg
    rw [hp.thr, apply_failed _ _ hp.nok]

theorem TRel.idle {F : FExec cfg} {n t : Nat} {mr : Mem P} {rt : Thread K P} (h : TRel F n t mr rt) (hr : ((F.st n).thr t).th.run = none) :
    ((F.st n).thr t).got = none ∧ rt = ((F.st n).thr t).th ∧ ((F.st n).thr t).own = none := by
  cases hg : ((F.st n).thr t).got with
  | none => exact ⟨rfl, (h.1 hg).1, (h.1 hg).2.1 hr⟩
  | some x =>
    obtain ⟨w, ok⟩ := x
    obtain ⟨c, p, q, nx, hp⟩ := h.2 w ok hg
    rw [hp.run] at hr; cases hr

/-- The relation of the executions at instant `n`. -/
structure FRel (F : FExec cfg) (n : Nat) (s : State K P) : Prop where
  mem : FMem s.m (F.st n).m (fun t => ((F.st n).thr t).owned) (fun t => ((F.st n).thr t).unlinked)
  clk : (F.st n).m.clock = n
  built : ∀ t c a, ((F.st n).thr t).th.run = some c → ((F.st n).thr t).got = none → ((F.st n).thr t).own = some a → (F.st n).m.deref a = c.pc.builds s.m
  thr : ∀ t, TRel F n t s.m (s.thr t)

/-! ### What other sessions do -/

theorem Sees.back {m1 m2 m : Mem P} {w : Word} (h : ∀ a, w.ptr = some a → ∀ l, m1.deref a = some (.data l) → m2.deref a = some (.data l)) (hs : Sees m2 m w) : Sees m1 m w :=
  fun a items ha hd => hs a items ha (h a ha items hd)

theorem RExec.builds_keep (R : RExec cfg) {n t : Nat} {c : Call K P} (h : ((R.st n).thr t).run = some c) (hp : ((R.st (n + 1)).thr t).pin = ((R.st n).thr t).pin) :
    c.pc.builds (R.st (n + 1)).m = c.pc.builds (R.st n).m := by
  obtain ⟨p, h1, h2, h3⟩ := R.run_pin h
  refine builds_congr (fun loc e a hc ha => ?_)
  have hs := R.cas_safe h h1 hc ha
  obtain ⟨-, k2, k3, -⟩ := R.keep (by rw [hp]; exact h1) (by omega) hs
  exact ⟨k2, k3, hs.1⟩

theorem FRel.other {F : FExec cfg} {R : RExec cfg} {n t : Nat} (h : FRel F n (R.st n)) (hf : (F.st (n + 1)).thr t = (F.st n).thr t)
    (hr : (R.st (n + 1)).thr t = (R.st n).thr t) (hd : ∀ a, ((F.st n).thr t).owned = some a → (F.st (n + 1)).m.deref a = (F.st n).m.deref a) :
    TRel F (n + 1) t (R.st (n + 1)).m ((R.st (n + 1)).thr t) ∧
    ∀ c a, ((F.st (n + 1)).thr t).th.run = some c → ((F.st (n + 1)).thr t).got = none → ((F.st (n + 1)).thr t).own = some a →
      (F.st (n + 1)).m.deref a = c.pc.builds (R.st (n + 1)).m := by
  have ht := h.thr t
  have hb : ∀ c, ((F.st n).thr t).got = none → ((F.st n).thr t).th.run = some c → c.pc.builds (R.st (n + 1)).m = c.pc.builds (R.st n).m := by
    intro c hg hc
    refine R.builds_keep (t := t) ?_ (by rw [hr])
    rw [(ht.1 hg).1]; exact hc
  refine ⟨⟨?_, ?_⟩, ?_⟩
  · intro hg
    rw [hf] at hg ⊢
    obtain ⟨h1, h2, h3⟩ := ht.1 hg
    refine ⟨by rw [hr]; exact h1, h2, fun c hc => ?_⟩
    rw [hb c hg hc]
    exact h3 c hc
  · intro w ok hg
    rw [hf] at hg
    obtain ⟨c, p, q, nx, hp⟩ := ht.2 w ok hg
    have hpin : ((R.st (n + 1)).thr t).pin = some p := by rw [hr, ht.pin]; exact hp.pin
    have hk := fun a (hs : SafeS (R.st n).m p a) => R.keep hpin hp.le hs
    refine ⟨c, p, q, nx, ⟨by rw [hf]; exact hp.run, by rw [hf]; exact hp.pin, by have := hp.le; omega, by rw [hr, hf]; exact hp.thr, hp.nok, ?_, ?_, ?_, ?_,
      by have := hp.lt; omega, hp.ev, hp.lab, ?_⟩⟩
    · intro m hm1 hm2
      rw [hf] at hm2 ⊢
      refine hp.next m (hm1.back fun a ha l => (hk a (hp.word a ha)).2.1 l) (fun hok => (hm2 hok).back fun a ha l => ?_)
      exact (hk a (hp.mine hok a ha)).2.1 l
    · exact fun a ha => (hk a (hp.word a ha)).1
    · intro hok a ha; rw [hf] at ha; exact (hk a (hp.mine hok a ha)).1
    · intro hok a ha
      obtain ⟨g1, τ, g2⟩ := hp.unl hok a ha
      exact ⟨(hk a g1).1, τ, (hk a g1).2.2.2 τ g2⟩
    · intro i hi hi'
      rcases Nat.lt_or_ge n i with g | g
      · have : i = n + 1 := by omega
        subst this; rw [hf, hg]; simp
      · exact hp.between i hi g
  · intro c a hc hg ha
    rw [hf] at hc hg ha
    rw [hb c hg hc, ← h.built t c a hc hg ha]
    exact hd a (by simp [FThread.owned, hg, ha])

/-! ### The coarse execution can do the step -/

theorem FExec.addr_free (F : FExec cfg) (n : Nat) : (F.st n).m.inUse (F.addr n) = false := by
  have hs := F.step n
  simp only [fstep] at hs
  cases h : (F.st n).m.inUse (F.addr n) with
  | false => rfl
  | true => simp [h] at hs

theorem not_inUse {m : Mem P} {a : Nat} : m.inUse a = false ↔ m.deref a = none := by simp [Mem.inUse]

theorem FRel.addr_free {F : FExec cfg} {n : Nat} {s : State K P} (h : FRel F n s) : s.m.deref (F.cAddr n) = none := by
  have hf : s.m.deref (F.addr n) = none := by
    cases hd : s.m.deref (F.addr n) with
    | none => rfl
    | some nd => have := not_inUse.mp (F.addr_free n); rw [h.mem.sub.live _ nd hd] at this; cases this
  simp only [FExec.cAddr]
  cases hl : F.lab n with
  | tick t w =>
    simp only
    cases hg : ((F.st n).thr t).got with
    | none =>
      cases ho : ((F.st n).thr t).own with
      | none => exact hf
      | some a => exact (h.mem.ownd t a (by simp [FThread.owned, hg, ho])).1
    | some x => exact hf
  | _ => exact hf

theorem FRel.can {F : FExec cfg} {R : RExec cfg} {n : Nat} (h : FRel F n (R.st n)) : ∃ s' e, rstep cfg (R.st n) (F.cAddr n) (F.coarseLab n (R.st n)) = some (s', e) ∧
    (F.coarseLab n (R.st n)).enabled (R.st n) ∧ (F.coarseLab n (R.st n)).WF cfg := by
  have hu : (R.st n).m.inUse (F.cAddr n) = false := not_inUse.mpr h.addr_free
  have hff := F.addr_free n
  have hfs := F.step n
  have hfail := fun t => C34_no_failure R n t
  have hwf := F.wf n
  have hen := F.enabled n
  simp only [rstep, hu, Bool.false_eq_true, ↓reduceIte]
  simp only [fstep, hff, Bool.false_eq_true, ↓reduceIte] at hfs
  simp only [FExec.coarseLab]
  cases hl : F.lab n with
  | pin t =>
    rw [hl] at hfs
    simp only at hfs ⊢
    have ht := (h.thr t).pin
    have hf := hfail t
    cases hp : ((F.st n).thr t).th.pin with
    | some p => simp [hp] at hfs
    | none =>
      rw [hp] at ht
      simp only [Contrie.step, ht, hf]
      exact ⟨_, _, rfl, trivial, trivial⟩
  | unpin t =>
    rw [hl] at hfs
    simp only at hfs ⊢
    cases hr : ((F.st n).thr t).th.run with
    | some c => cases hp : ((F.st n).thr t).th.pin <;> simp [hp, hr] at hfs
    | none =>
      obtain ⟨-, e, -⟩ := (h.thr t).idle hr
      cases hp : ((F.st n).thr t).th.pin with
      | none => simp [hp] at hfs
      | some p =>
        have hf := hfail t
        rw [e] at hf
        simp only [Contrie.step, e, hp, hr, hf]
        exact ⟨_, _, rfl, trivial, trivial⟩
  | call t r =>
    rw [hl] at hfs hwf
    simp only at hfs ⊢
    cases hr : ((F.st n).thr t).th.run with
    | some c => cases hp : ((F.st n).thr t).th.pin <;> simp [hp, hr] at hfs
    | none =>
      obtain ⟨-, e, -⟩ := (h.thr t).idle hr
      cases hp : ((F.st n).thr t).th.pin with
      | none => simp [hp] at hfs
      | some p =>
        have hf := hfail t
        rw [e] at hf
        simp only [Contrie.step, e, hp, hr, hf]
        exact ⟨_, _, rfl, trivial, hwf⟩
  | tick t weak =>
    rw [hl] at hfs
    simp only at hfs ⊢
    cases hg : ((F.st n).thr t).got with
    | some x => exact ⟨_, _, rfl, trivial, trivial⟩
    | none =>
      cases hr : ((F.st n).thr t).th.run with
      | none => simp [hr] at hfs
      | some c =>
        simp only [Contrie.step, ((h.thr t).1 hg).1, hr]
        exact ⟨_, _, rfl, trivial, trivial⟩
  | abort t =>
    rw [hl] at hfs
    simp only at hfs ⊢
    cases hrr : ((R.st n).thr t).run with
    | some c =>
      simp only [Contrie.step, hrr]
      exact ⟨_, _, rfl, trivial, trivial⟩
    | none =>
      have hp : ∃ p, ((R.st n).thr t).pin = some p := by
        cases hg : ((F.st n).thr t).got with
        | none =>
          rw [((h.thr t).1 hg).1] at hrr
          simp [hrr] at hfs
        | some x =>
          obtain ⟨w, ok⟩ := x
          obtain ⟨c, p, q, nx, hp⟩ := (h.thr t).2 w ok hg
          exact ⟨p, by rw [(h.thr t).pin]; exact hp.pin⟩
      obtain ⟨p, hp⟩ := hp
      simp only [Contrie.step, hrr, hp, hfail t]
      exact ⟨_, _, rfl, trivial, trivial⟩
  | free x =>
    rw [hl] at hen
    simp only
    split
    · next hx =>
      refine ⟨_, _, rfl, ?_, trivial⟩
      obtain ⟨τ, e1, e2⟩ := hen
      obtain ⟨τ', g1, g2⟩ := h.mem.ret x τ (by intro e; simp [Mem.inUse, e] at hx) e1
      refine ⟨τ', g2, fun t p hp => ?_⟩
      rw [(h.thr t).pin] at hp
      have := e2 t p hp
      omega
    · exact ⟨_, _, rfl, trivial, trivial⟩
  | idle => exact ⟨_, _, rfl, trivial, trivial⟩

/-! ### One step -/

/-- What it takes for the relation to hold after a step in which only session `t` did something. -/
theorem FRel.assemble {F : FExec cfg} {R : RExec cfg} {n : Nat} (h : FRel F n (R.st n)) (t : Nat)
    (hm : FMem (R.st (n + 1)).m (F.st (n + 1)).m (fun t => ((F.st (n + 1)).thr t).owned) (fun t => ((F.st (n + 1)).thr t).unlinked))
    (hc : (F.st (n + 1)).m.clock = (F.st n).m.clock + 1)
    (ho : ∀ t', t' ≠ t → (F.st (n + 1)).thr t' = (F.st n).thr t' ∧ (R.st (n + 1)).thr t' = (R.st n).thr t' ∧
      ∀ a, ((F.st n).thr t').owned = some a → (F.st (n + 1)).m.deref a = (F.st n).m.deref a)
    (ht : TRel F (n + 1) t (R.st (n + 1)).m ((R.st (n + 1)).thr t) ∧
      ∀ c a, ((F.st (n + 1)).thr t).th.run = some c → ((F.st (n + 1)).thr t).got = none → ((F.st (n + 1)).thr t).own = some a →
      (F.st (n + 1)).m.deref a = c.pc.builds (R.st (n + 1)).m) : FRel F (n + 1) (R.st (n + 1)) := by
  have key : ∀ t', TRel F (n + 1) t' (R.st (n + 1)).m ((R.st (n + 1)).thr t') ∧
      ∀ c a, ((F.st (n + 1)).thr t').th.run = some c → ((F.st (n + 1)).thr t').got = none → ((F.st (n + 1)).thr t').own = some a →
      (F.st (n + 1)).m.deref a = c.pc.builds (R.st (n + 1)).m := by
    intro t'
    by_cases e : t' = t
    · subst e; exact ht
    · obtain ⟨h1, h2, h3⟩ := ho t' e
      exact h.other h1 h2 h3
  exact ⟨hm, by rw [hc, h.clk], fun t' c a => (key t').2 c a, fun t' => (key t').1⟩

theorem upd_fun {α β : Type} {f : Nat → α} {g : α → β} {t : Nat} {x : α} : (fun t' => g (upd f t x t')) = upd (fun t' => g (f t')) t (g x) := by
  funext t'
  by_cases e : t' = t
  · subst e; rw [upd_same, upd_same]
  · rw [upd_other _ _ e, upd_other _ _ e]

/-- The memory after a step that does nothing to it. -/
theorem FMem.step_same {mr mf : Mem P} {own unl : Nat → Option Nat} {x : Nat} (h : FMem mr mf own unl) (hx : mr.deref x = none) : FMem (mr.offer x).bump mf.bump own unl :=
  h.same rfl (fun a => offer_deref hx a) (fun _ ha => offer_retired hx ha) rfl (fun _ => rfl) rfl

/-- A step after which session `t` has no access in progress and has built nothing. -/
theorem FRel.simple {F : FExec cfg} {R : RExec cfg} {n t x : Nat} (h : FRel F n (R.st n)) (hx : (R.st n).m.deref x = none) {th' : Thread K P}
    (hR : R.st (n + 1) = ⟨((R.st n).m.offer x).bump, upd (R.st n).thr t th'⟩)
    (hF : F.st (n + 1) = ⟨((F.st n).m.giveBack ((F.st n).thr t).owned).bump, upd (F.st n).thr t ⟨th', none, none⟩⟩)
    (hu : ((F.st n).thr t).unlinked = none) (hb : ∀ c m, th'.run = some c → c.pc.builds (P := P) m = none) : FRel F (n + 1) (R.st (n + 1)) := by
  have e : (F.st (n + 1)).thr t = ⟨th', none, none⟩ := by rw [hF]; exact upd_same _ _ _
  refine h.assemble t ?_ (by rw [hF]; show (Mem.giveBack _ _).clock + 1 = _; rw [giveBack_clock]) ?_ ⟨⟨?_, ?_⟩, ?_⟩
  · rw [hF, hR]
    have := (h.mem.give t).step_same hx
    simp only [upd_fun (g := FThread.owned), upd_fun (g := FThread.unlinked)]
    have e1 : upd (fun t' => ((F.st n).thr t').unlinked) t (FThread.unlinked (⟨th', none, none⟩ : FThread K P)) = fun t' => ((F.st n).thr t').unlinked := by
      funext t'
      by_cases e : t' = t
      · subst e; rw [upd_same, hu]; rfl
      · rw [upd_other _ _ e]
    rw [e1]
    exact this
  · intro t' e'
    rw [hF, hR]
    refine ⟨upd_other _ _ e', upd_other _ _ e', fun a ha => ?_⟩
    show (Mem.giveBack _ _).deref a = _
    rw [giveBack_deref, if_neg (fun e => e' (h.mem.inj t' t a ha e))]
  · intro _
    rw [e]
    refine ⟨by rw [hR]; exact upd_same _ _ _, fun _ => rfl, fun c hc => ?_⟩
    rw [hb c _ hc]; rfl
  · intro w ok hg; rw [e] at hg; cases hg
  · intro c a hc hg ha; rw [e] at ha; cases ha

theorem FRel.no_run {F : FExec cfg} {R : RExec cfg} {n t : Nat} (h : FRel F n (R.st n)) (hp : ((F.st n).thr t).th.pin = none) : ((F.st n).thr t).th.run = none := by
  have ht := h.thr t
  cases hr : ((F.st n).thr t).th.run with
  | none => rfl
  | some c =>
    exfalso
    cases hg : ((F.st n).thr t).got with
    | none =>
      have e := (ht.1 hg).1
      obtain ⟨p, g, -⟩ := R.run_pin (t := t) (n := n) (c := c) (by rw [e]; exact hr)
      rw [e, hp] at g; cases g
    | some x =>
      obtain ⟨w, ok⟩ := x
      obtain ⟨c, p, q, nx, k⟩ := ht.2 w ok hg
      have := k.pin
      rw [hp] at this; cases this

/-- Guards, calls, unwinding. -/
theorem FRel.calls {F : FExec cfg} {R : RExec cfg} {n t : Nat} (h : FRel F n (R.st n)) (hl : F.lab n = .pin t ∨ F.lab n = .unpin t ∨ (∃ r, F.lab n = .call t r) ∨ F.lab n = .abort t)
    (h1 : R.lab n = F.coarseLab n (R.st n)) (h2 : R.addr n = F.cAddr n) : FRel F (n + 1) (R.st (n + 1)) := by
  have hx := h.addr_free
  have hrs := R.step n
  have hfs := F.step n
  rw [h1, h2] at hrs
  simp only [rstep, not_inUse.mpr hx, Bool.false_eq_true, ↓reduceIte] at hrs
  simp only [fstep, F.addr_free n, Bool.false_eq_true, ↓reduceIte] at hfs
  have ht := h.thr t
  have hf := C34_no_failure R n t
  have hclk : ((R.st n).m.offer (F.cAddr n)).clock = (F.st n).m.clock := by rw [h.clk]; exact R.clock n
  rcases hl with hl | hl | ⟨r, hl⟩ | hl
  · simp only [FExec.coarseLab, hl, Contrie.step, hclk] at hrs
    rw [hl] at hfs
    simp only at hfs
    cases hp : ((F.st n).thr t).th.pin with
    | some p => simp [hp] at hfs
    | none =>
      have hrun := h.no_run hp
      obtain ⟨hg, e, ho⟩ := ht.idle hrun
      rw [e] at hf
      simp only [hp, hf, Option.some.injEq, Prod.mk.injEq] at hfs
      simp only [e, hp, hf, Option.some.injEq, Prod.mk.injEq] at hrs
      refine h.simple hx hrs.1.symm ?_ (by simp [FThread.unlinked, hg]) (fun c m hc => by simp only [hrun] at hc; cases hc)
      rw [← hfs.1]
      simp only [FThread.owned, hg, ho, Mem.giveBack]
  · simp only [FExec.coarseLab, hl, Contrie.step, hclk] at hrs
    rw [hl] at hfs
    simp only at hfs
    cases hrun : ((F.st n).thr t).th.run with
    | some c => cases hp : ((F.st n).thr t).th.pin <;> simp [hp, hrun] at hfs
    | none =>
      obtain ⟨hg, e, ho⟩ := ht.idle hrun
      rw [e] at hf
      cases hp : ((F.st n).thr t).th.pin with
      | none => simp [hp] at hfs
      | some p =>
        simp only [hp, hf, hrun, Option.some.injEq, Prod.mk.injEq] at hfs
        simp only [e, hp, hf, hrun, Option.some.injEq, Prod.mk.injEq] at hrs
        refine h.simple hx hrs.1.symm ?_ (by simp [FThread.unlinked, hg]) (fun c m hc => by simp only [hrun] at hc; cases hc)
        rw [← hfs.1]
        simp only [FThread.owned, hg, ho, Mem.giveBack]
  · simp only [FExec.coarseLab, hl, Contrie.step, hclk] at hrs
    rw [hl] at hfs
    simp only at hfs
    cases hrun : ((F.st n).thr t).th.run with
    | some c => cases hp : ((F.st n).thr t).th.pin <;> simp [hp, hrun] at hfs
    | none =>
      obtain ⟨hg, e, ho⟩ := ht.idle hrun
      rw [e] at hf
      cases hp : ((F.st n).thr t).th.pin with
      | none => simp [hp] at hfs
      | some p =>
        simp only [hp, hf, hrun, Option.some.injEq, Prod.mk.injEq] at hfs
        simp only [e, hp, hf, hrun, Option.some.injEq, Prod.mk.injEq] at hrs
        refine h.simple hx hrs.1.symm ?_ (by simp [FThread.unlinked, hg]) (fun c m hc => ?_)
        · rw [← hfs.1]
          simp only [FThread.owned, hg, ho, Mem.giveBack]
        · simp only [Option.some.injEq] at hc
          subst hc
          cases r with
          | op o => cases o <;> rfl
          | _ => rfl
  · simp only [FExec.coarseLab, hl] at hrs
    rw [hl] at hfs
    simp only at hfs
    have hff := ht.failed
    cases hrun : ((F.st n).thr t).th.run with
    | none => simp [hrun] at hfs
    | some c =>
      cases hu : ((F.st n).thr t).unlinked with
      | some a => simp [hrun, hu] at hfs
      | none =>
        simp only [hrun, hu, Option.some.injEq, Prod.mk.injEq] at hfs
        cases hrr : ((R.st n).thr t).run with
        | none =>
          cases hp : ((R.st n).thr t).pin with
          | none => simp only [hrr, Contrie.step, hp] at hrs; simp at hrs
          | some p =>
            simp only [hrr, Contrie.step, hp, hf, Option.some.injEq, Prod.mk.injEq] at hrs
            refine h.simple hx hrs.1.symm ?_ hu (fun c m hc => by simp only [hrr] at hc; cases hc)
            rw [← hfs.1]
            simp only [hrr, ← hff, hf]
        | some c' =>
          simp only [hrr, Contrie.step, Option.some.injEq, Prod.mk.injEq] at hrs
          refine h.simple hx hrs.1.symm ?_ hu (fun c m hc => by cases hc)
          rw [← hfs.1]
          simp only [← hff, hf]

/-- Nothing, or the collector. -/
theorem FRel.collector {F : FExec cfg} {R : RExec cfg} {n : Nat} (h : FRel F n (R.st n)) (hl : F.lab n = .idle ∨ ∃ x, F.lab n = .free x)
    (h1 : R.lab n = F.coarseLab n (R.st n)) (h2 : R.addr n = F.cAddr n) : FRel F (n + 1) (R.st (n + 1)) := by
  have hx := h.addr_free
  have hrs := R.step n
  have hfs := F.step n
  rw [h1, h2] at hrs
  simp only [rstep, not_inUse.mpr hx, Bool.false_eq_true, ↓reduceIte] at hrs
  simp only [fstep, F.addr_free n, Bool.false_eq_true, ↓reduceIte] at hfs
  have key : ∀ t, (F.st (n + 1)).thr t = (F.st n).thr t → (R.st (n + 1)).thr t = (R.st n).thr t → (∀ a, ((F.st n).thr t).owned = some a → (F.st (n + 1)).m.deref a = (F.st n).m.deref a) →
    _ := fun t a b c => h.other (t := t) a b c
  rcases hl with hl | ⟨x, hl⟩
  · simp only [FExec.coarseLab, hl, Contrie.step, Option.some.injEq, Prod.mk.injEq] at hrs
    simp only [hl, Option.some.injEq, Prod.mk.injEq] at hfs
    have hR := hrs.1.symm
    have hF := hfs.1.symm
    refine h.assemble 0 ?_ (by rw [hF]; rfl) ?_ (key 0 (by rw [hF]) (by rw [hR]) (by rw [hF]; exact fun _ _ => rfl))
    · rw [hR, hF]; exact h.mem.step_same hx
    · intro t' _; rw [hR, hF]; exact ⟨rfl, rfl, fun _ _ => rfl⟩
  · simp only [hl, Option.some.injEq, Prod.mk.injEq] at hfs
    have hF := hfs.1.symm
    obtain ⟨τ, hτ, -⟩ : ∃ τ, (F.st n).m.retired x = some τ ∧ ∀ t p, ((F.st n).plain.thr t).pin = some p → τ < p := by
      have := F.enabled n; rw [hl] at this; exact this
    have hown : ∀ t a, ((F.st n).thr t).owned = some a → a ≠ x := by
      rintro t a ha rfl
      have := (h.mem.ownd t a ha).2.1
      rw [hτ] at this; cases this
    have hdo : ∀ t a, ((F.st n).thr t).owned = some a → (F.st (n + 1)).m.deref a = (F.st n).m.deref a := by
      intro t a ha
      rw [hF]
      simp [Mem.deref, Mem.bump, upd_other _ _ (hown t a ha)]
    cases hu : (R.st n).m.inUse x with
    | true =>
      simp only [FExec.coarseLab, hl, hu, ↓reduceIte, Contrie.step, Option.some.injEq, Prod.mk.injEq] at hrs
      have hR := hrs.1.symm
      refine h.assemble 0 ?_ (by rw [hF]; rfl) ?_ (key 0 (by rw [hF]) (by rw [hR]) (hdo 0))
      · rw [hR, hF]
        exact (h.mem.step_same hx).free (x := x) hτ
      · intro t' _; exact ⟨by rw [hF], by rw [hR], hdo t'⟩
    | false =>
      simp only [FExec.coarseLab, hl, hu, Bool.false_eq_true, ↓reduceIte, Contrie.step, Option.some.injEq, Prod.mk.injEq] at hrs
      have hR := hrs.1.symm
      refine h.assemble 0 ?_ (by rw [hF]; rfl) ?_ (key 0 (by rw [hF]) (by rw [hR]) (hdo 0))
      · rw [hR, hF]
        have hxf : (F.st n).m.deref x = none := by
          cases hd : (F.st n).m.deref x with
          | none => rfl
          | some nd =>
            rcases h.mem.only x (by rw [hd]; simp) with g | ⟨t, g⟩
            · exact absurd (not_inUse.mp hu) g
            · exact absurd rfl (hown t x g)
        refine (h.mem.step_same hx).same rfl (fun _ => rfl) (fun _ _ => rfl) rfl (fun a => ?_) rfl
        by_cases e : a = x
        · subst e; rw [show (F.st n).m.bump.deref a = none from hxf]; simp [Mem.deref]
        · simp only [Mem.deref, Mem.bump, upd_other _ _ e]; rfl
      · intro t' _; exact ⟨by rw [hF], by rw [hR], hdo t'⟩

theorem unlinks_cas {pc : PC K P} {a : Nat} (h : pc.unlinks = some a) : ∃ loc e, pc.cas = some (loc, e) ∧ e.ptr = some a := by
  cases pc with
  | travCas st hash mode shift cur parent node new kind =>
    cases kind with
    | replace f => exact ⟨cur, node, rfl, h⟩
    | _ => cases h
  | remCas key shift cur lv node new del => exact ⟨cur, node, rfl, h⟩
  | pruneCas parent child acc k => exact ⟨parent, child, rfl, h⟩
  | _ => cases h

theorem fineAccess_other {mr mf mf' : Mem P} {weak b : Bool} {own : Option Nat} {pc : PC K P} {w : Word} (h : pc.fineAccess mf weak own = some (mf', w, b))
    (hw : (∃ loc o, pc.access .code = some (loc, o) ∧ mr.read loc = some w) ∨ pc.access .code = none ∧ w = pc.top) {a : Nat} (ha : mr.deref a = none) : mf'.deref a = mf.deref a := by
  simp only [PC.fineAccess] at h
  rcases hw with ⟨loc, o, h1, h2⟩ | ⟨h1, -⟩
  · simp only [h1] at h
    split at h
    · cases h
    · split at h
      · simp only [Option.some.injEq, Prod.mk.injEq] at h
        rw [← h.1]
        refine write_deref_other _ ?_
        rintro i rfl
        simp [Mem.read, ha] at h2
      · simp only [Option.some.injEq, Prod.mk.injEq] at h
        rw [← h.1]
  · simp only [h1, Option.some.injEq, Prod.mk.injEq] at h
    rw [← h.1]

theorem fineAccess_ok {mr mf mf' : Mem P} {weak b : Bool} {own : Option Nat} {pc : PC K P} {w : Word} (h : pc.fineAccess mf weak own = some (mf', w, b)) (hs : Sub mr mf)
    (hw : ∃ loc o w, pc.access .code = some (loc, o) ∧ mr.read loc = some w ∧ pc.storesIf weak w = true) : b = true := by
  obtain ⟨loc, o, w', h1, h2, h3⟩ := hw
  simp only [PC.fineAccess, h1, hs.read h2, h3, ↓reduceIte, Option.some.injEq, Prod.mk.injEq] at h
  exact h.2.2.symm

theorem builds_offer {m : Mem P} {x : Nat} (hx : m.deref x = none) (pc : PC K P) : pc.builds (m.offer x) = pc.builds m := by
  cases pc with
  | pruneCas parent child acc k => simp only [PC.builds, Mem.pathOf, show (m.offer x).deref = m.deref from funext (offer_deref hx)]
  | _ => rfl

/-- The access. -/
theorem FRel.access {F : FExec cfg} {R : RExec cfg} {n t : Nat} {weak : Bool} (h : FRel F n (R.st n)) (hl : F.lab n = .tick t weak) (hg : ((F.st n).thr t).got = none)
    (h1 : R.lab n = F.coarseLab n (R.st n)) (h2 : R.addr n = F.cAddr n) (h3 : R.ev n = F.cEv n) : FRel F (n + 1) (R.st (n + 1)) := by
  have hx := h.addr_free
  have hrs := R.step n
  have hfs := F.step n
  rw [h1, h2] at hrs
  simp only [rstep, not_inUse.mpr hx, Bool.false_eq_true, ↓reduceIte] at hrs
  simp only [fstep, F.addr_free n, Bool.false_eq_true, ↓reduceIte] at hfs
  have ht := h.thr t
  obtain ⟨e, -, hbs⟩ := ht.1 hg
  simp only [FExec.coarseLab, hl, hg, Contrie.step, e] at hrs
  simp only [hl, hg] at hfs
  cases hrun : ((F.st n).thr t).th.run with
  | none => simp [hrun] at hfs
  | some c =>
    have hbs := hbs c hrun
    have hrunR : ((R.st n).thr t).run = some c := by rw [e]; exact hrun
    obtain ⟨p, hp, hpi, hin⟩ := R.run_pin hrunR
    simp only [hrun, Option.some.injEq, Prod.mk.injEq] at hrs
    obtain ⟨hR, hev⟩ := hrs
    have hR := hR.symm
    -- the step is fine
    have hok : (tick cfg ((R.st n).m.offer (F.cAddr n)) weak c.pc).2.ok := by
      have := C34_no_failure R (n + 1) t
      rw [hR] at this
      simp only [upd_same] at this
      cases hn : (tick cfg ((R.st n).m.offer (F.cAddr n)) weak c.pc).2 with
      | fail f => rw [hn] at this; cases this
      | goto => trivial
      | ret => trivial
    have hca : ∀ a, ((F.st n).thr t).own = some a → F.cAddr n = a := by
      intro a ha; simp [FExec.cAddr, hl, hg, ha]
    have hsub : Sub ((R.st n).m.offer (F.cAddr n)) (F.st n).m := ⟨h.mem.sub.root, fun a nd ha => h.mem.sub.live a nd (by rw [← offer_deref hx a]; exact ha)⟩
    obtain ⟨mf', w, b, S⟩ := tick_split (cfg := cfg) (weak := weak) (own := ((F.st n).thr t).own) hsub (Mem.offer_blank _ _) (R.newOK hrunR)
      (by
        rw [builds_offer hx, ← hbs]
        cases ho : ((F.st n).thr t).own with
        | none => simp
        | some a => simp only [Option.isSome, ↓reduceIte, Option.some.injEq]; exact (hca a ho).symm)
      (by
        intro nd hnd
        rw [builds_offer hx] at hnd
        cases ho : ((F.st n).thr t).own with
        | none => rw [ho, hnd] at hbs; cases hbs
        | some a =>
          show (F.st n).m.deref (F.cAddr n) = _
          rw [hca a ho, h.built t c a hrun hg ho, hnd])
      hok
    simp only [hrun, S.acc, Option.some.injEq, Prod.mk.injEq] at hfs
    have hF := hfs.1.symm
    have hRm : (R.st (n + 1)).m = (tick cfg ((R.st n).m.offer (F.cAddr n)) weak c.pc).1.bump := by rw [hR]
    have hpin' : ((R.st (n + 1)).thr t).pin = some p := by
      rw [hR]; simp only [upd_same]; rw [thread_apply_pin, ← e]; exact hp
    have hpn : p ≤ n := by omega
    have hclk : ((R.st n).m.offer (F.cAddr n)).clock = n := R.clock n
    have hrd : ∀ a, (R.st (n + 1)).m.deref a ≠ none ↔ (R.st n).m.deref a ≠ none ∨ (b = true ∧ ((F.st n).thr t).own = some a) := by
      intro a
      rw [hRm, show (tick cfg ((R.st n).m.offer (F.cAddr n)) weak c.pc).1.bump.deref a = (tick cfg ((R.st n).m.offer (F.cAddr n)) weak c.pc).1.deref a from rfl, S.rdom a, offer_deref hx]
    have hsafe : ∀ a, c.pc.unlinks = some a → SafeS (R.st n).m p a := by
      intro a ha
      obtain ⟨loc, w0, g1, g2⟩ := unlinks_cas ha
      exact R.cas_safe hrunR hp g1 g2
    have hun : b = true → ∀ a, c.pc.unlinks = some a → (R.st (n + 1)).m.retired a = some n := by
      intro hb a ha
      have := S.unl hb a ha
      rw [hclk] at this
      rw [hRm]
      exact this
    have ho : ((F.st n).thr t).owned = ((F.st n).thr t).own := by simp [FThread.owned, hg]
    have hmem := h.mem
    have hme : FMem (tick cfg ((R.st n).m.offer (F.cAddr n)) weak c.pc).1 mf' (upd (fun t => ((F.st n).thr t).owned) t (if b then none else ((F.st n).thr t).owned))
        (upd (fun t => ((F.st n).thr t).unlinked) t (if b then c.pc.unlinks else none)) := by
      refine hmem.access (t := t) (x := F.cAddr n) hx (fun a ha => hca a (by rw [← ho]; exact ha)) (by rw [ho]; exact S) (by simp [FThread.unlinked, hg]) ?_ ?_ ?_
      · intro hb a ha
        have hd := (hsafe a ha).1
        have hr : (R.st n).m.retired a = none := by
          cases hτ : (R.st n).m.retired a with
          | none => rfl
          | some τ =>
            have k1 := R.ret_keep hd ((hrd a).mpr (.inl hd)) hτ
            have k2 := R.ret_lt hd hτ
            rw [hun hb a ha] at k1
            cases k1
            omega
        refine ⟨hd, hr, fun t' hu => ?_⟩
        simp only [FThread.unlinked] at hu
        split at hu
        · next w' c' g1 g2 =>
          obtain ⟨c'', p', q', nx', k⟩ := (h.thr t').2 _ _ g1
          have := k.run
          rw [g2] at this
          cases this
          obtain ⟨-, τ, k2⟩ := k.unl rfl a hu
          rw [hr] at k2; cases k2
        · cases hu
      · intro a τ ha hτ
        have := R.ret_keep ha ((hrd a).mpr (.inl ha)) hτ
        rw [hRm] at this
        exact this
      · intro a
        rcases tick_retires_fine (cfg := cfg) ((R.st n).m.offer (F.cAddr n)) weak c.pc a with g | ⟨-, g2, g3⟩
        · exact .inl g
        · exact .inr ⟨fineAccess_ok S.acc hsub g3, g2⟩
    refine h.assemble t ?_ (by rw [hF]; show mf'.clock + 1 = _; rw [S.clock.1]) ?_ ⟨⟨?_, ?_⟩, ?_⟩
    · rw [hF, hR]
      simp only [upd_fun (g := FThread.owned), upd_fun (g := FThread.unlinked)]
      have e1 : FThread.owned ({ (F.st n).thr t with got := some (w, b) } : FThread K P) = if b then none else ((F.st n).thr t).owned := by
        cases b
        · simp [FThread.owned, hg]
        · simp [FThread.owned]
      have e2 : FThread.unlinked ({ (F.st n).thr t with got := some (w, b) } : FThread K P) = if b then c.pc.unlinks else none := by
        cases b
        · simp [FThread.unlinked, hrun]
        · simp [FThread.unlinked, hrun]
      rw [e1, e2]
      exact hme.same rfl (fun _ => rfl) (fun _ _ => rfl) rfl (fun _ => rfl) rfl
    · intro t' e'
      refine ⟨by rw [hF]; exact upd_other _ _ e', by rw [hR]; exact upd_other _ _ e', fun a ha => ?_⟩
      rw [hF]
      exact fineAccess_other S.acc S.word (by rw [offer_deref hx]; exact (hmem.ownd t' a ha).1)
    · intro hg'
      rw [hF] at hg'
      simp only [upd_same] at hg'
      cases hg'
    · intro w' ok' hg'
      have ef : (F.st (n + 1)).thr t = { (F.st n).thr t with got := some (w, b) } := by rw [hF]; exact upd_same _ _ _
      rw [ef] at hg'
      simp only [Option.some.injEq, Prod.mk.injEq] at hg'
      obtain ⟨rfl, rfl⟩ := hg'
      refine ⟨c, p, n, _, ⟨by rw [ef]; exact hrun, by rw [ef, ← hp, e], by omega, by rw [hR, ef]; exact upd_same _ _ _, hok, ?_, ?_, ?_, ?_, by omega, ?_, ⟨weak, hl⟩, ?_⟩⟩
      · intro m hm1 hm2
        rw [ef] at hm2 ⊢
        rw [hRm] at hm1 hm2
        exact S.next m hm1 hm2
      · intro a ha
        refine (R.keep hpin' hpn (R.found_safe hrunR hp ?_ ha)).1
        have := S.word
        simp only [read_of_deref (show ((R.st n).m.offer (F.cAddr n)).root = (R.st n).m.root from rfl) (offer_deref hx)] at this
        exact this
      · intro hb a ha
        rw [ef] at ha
        refine ⟨(hrd a).mpr (.inr ⟨hb, ha⟩), fun τ hτ => ?_⟩
        rw [hRm] at hτ
        rcases tick_retires_fine (cfg := cfg) ((R.st n).m.offer (F.cAddr n)) weak c.pc a with g | ⟨g, -⟩
        · rw [show Mem.bump _ = _ from rfl] at hτ
          have hτ' : (tick cfg ((R.st n).m.offer (F.cAddr n)) weak c.pc).1.retired a = some τ := hτ
          rw [g, ← hca a ha] at hτ'
          simp [Mem.offer] at hτ'
        · have hτ' : (tick cfg ((R.st n).m.offer (F.cAddr n)) weak c.pc).1.retired a = some τ := hτ
          rw [g, hclk] at hτ'
          cases hτ'
          exact hpn
      · intro hb a ha
        exact ⟨(R.keep hpin' hpn (hsafe a ha)).1, n, hun hb a ha⟩
      · rw [← h3, ← hev]
      · intro i hi hi'
        have : i = n + 1 := by omega
        subst this
        rw [ef]; simp
    · intro c' a _ hg'
      rw [hF] at hg'
      simp only [upd_same] at hg'
      cases hg'

theorem next_builds_none {nx : Next K P} {m : Mem P} {th : Thread K P} {c : Call K P} (h : (th.apply c nx).run = none) : nx.builds m = none := by
  cases nx with
  | goto pc ran => cases h
  | _ => rfl

theorem next_builds_some {nx : Next K P} {m : Mem P} {th : Thread K P} {c c' : Call K P} (h : (th.apply c nx).run = some c') : nx.builds m = c'.pc.builds m := by
  cases nx with
  | goto pc ran => simp only [Thread.apply, Option.some.injEq] at h; rw [← h]; rfl
  | _ => cases h

/-- The outcome of the rest is known at the time of the access. -/
theorem FRel.rest_next {F : FExec cfg} {s : State K P} {n t : Nat} (h : FRel F n s) {w : Word} {ok : Bool} {c : Call K P} {p q : Nat} {nx : Next K P}
    (hp : Pending F n t s.m (s.thr t) w ok c p q nx) : c.pc.fineNext cfg (F.st n).m w ok ((F.st n).thr t).own = nx :=
  hp.next _ (fun a l _ hd => h.mem.sub.live a _ hd) (fun _ a l _ hd => h.mem.sub.live a _ hd)

theorem FRel.unlinked_live {F : FExec cfg} {s : State K P} {n t a : Nat} (h : FRel F n s) (hu : ((F.st n).thr t).unlinked = some a) : s.m.deref a ≠ none ∧ ∃ τ, s.m.retired a = some τ := by
  simp only [FThread.unlinked] at hu
  split at hu
  · next w' c' g1 g2 =>
    obtain ⟨c'', p', q', nx', k⟩ := (h.thr t).2 _ _ g1
    have := k.run
    rw [g2] at this
    cases this
    obtain ⟨g3, g4⟩ := k.unl rfl a hu
    exact ⟨g3.1, g4⟩
  · cases hu

/-- The rest. -/
theorem FRel.rest {F : FExec cfg} {R : RExec cfg} {n t : Nat} {weak : Bool} (h : FRel F n (R.st n)) (hl : F.lab n = .tick t weak) {w : Word} {ok : Bool}
    (hg : ((F.st n).thr t).got = some (w, ok)) (h1 : R.lab n = F.coarseLab n (R.st n)) (h2 : R.addr n = F.cAddr n) : FRel F (n + 1) (R.st (n + 1)) := by
  have hx := h.addr_free
  have hrs := R.step n
  have hfs := F.step n
  rw [h1, h2] at hrs
  have hxf := not_inUse.mp (F.addr_free n)
  simp only [rstep, not_inUse.mpr hx, Bool.false_eq_true, ↓reduceIte] at hrs
  simp only [fstep, F.addr_free n, Bool.false_eq_true, ↓reduceIte] at hfs
  have ht := h.thr t
  obtain ⟨c, p, q, nx, hp⟩ := ht.2 w ok hg
  simp only [FExec.coarseLab, hl, hg, Contrie.step, Option.some.injEq, Prod.mk.injEq] at hrs
  simp only [hl, hg, hp.run, h.rest_next hp, Option.some.injEq, Prod.mk.injEq] at hfs
  have hR := hrs.1.symm
  have hF := hfs.1.symm
  have hrt : ((R.st (n + 1)).thr t) = ((F.st n).thr t).th.apply c nx := by rw [hR]; exact hp.thr
  have ef : (F.st (n + 1)).thr t = ⟨((F.st n).thr t).th.apply c nx, (nx.builds (F.st n).m).map (fun _ => F.addr n), none⟩ := by rw [hF]; exact upd_same _ _ _
  -- what is built
  have hbuild : ∀ c', (((F.st n).thr t).th.apply c nx).run = some c' → nx.builds (F.st n).m = c'.pc.builds (R.st (n + 1)).m := by
    intro c' hc'
    have hrR : ((R.st n).thr t).run = some c' := by rw [hp.thr]; exact hc'
    have hpR : ((R.st n).thr t).pin = some p := by rw [ht.pin]; exact hp.pin
    rw [next_builds_some hc', hR, show c'.pc.builds ((R.st n).m.offer (F.cAddr n)).bump = c'.pc.builds ((R.st n).m.offer (F.cAddr n)) from by cases c'.pc <;> rfl, builds_offer hx]
    refine builds_congr (fun loc e a hc ha => ?_)
    have hs := R.cas_safe hrR hpR hc ha
    exact ⟨fun l hd => h.mem.sub.live a _ hd, fun c q hd => ⟨c, h.mem.sub.live a _ hd⟩, hs.1⟩
  have hm1 : FMem (R.st n).m (if ok then (F.st n).m.handOver c.pc.unlinks else (F.st n).m.giveBack ((F.st n).thr t).own) (upd (fun t => ((F.st n).thr t).owned) t none)
      (upd (fun t => ((F.st n).thr t).unlinked) t none) := by
    cases hok : ok with
    | true =>
      subst hok
      have e1 : ((F.st n).thr t).owned = none := by simp [FThread.owned, hg]
      have e2 : ((F.st n).thr t).unlinked = c.pc.unlinks := by simp [FThread.unlinked, hg, hp.run]
      have hh := h.mem.hand t (fun a ha => by
        obtain ⟨g1, τ, g2⟩ := h.unlinked_live ha
        refine ⟨g1, τ, ?_, g2⟩
        have := R.ret_lt g1 g2
        rw [h.clk]; omega)
      simp only [↓reduceIte]
      rw [← e2]
      have : upd (fun t => ((F.st n).thr t).owned) t none = fun t => ((F.st n).thr t).owned := by
        funext t'
        by_cases e : t' = t
        · subst e; rw [upd_same, e1]
        · rw [upd_other _ _ e]
      rw [this]
      exact hh
    | false =>
      subst hok
      have e1 : ((F.st n).thr t).owned = ((F.st n).thr t).own := by simp [FThread.owned, hg]
      have e2 : ((F.st n).thr t).unlinked = none := by simp [FThread.unlinked, hg]
      simp only [Bool.false_eq_true, ↓reduceIte]
      rw [← e1]
      have : upd (fun t => ((F.st n).thr t).unlinked) t none = fun t => ((F.st n).thr t).unlinked := by
        funext t'
        by_cases e : t' = t
        · subst e; rw [upd_same, e2]
        · rw [upd_other _ _ e]
      rw [this]
      exact h.mem.give t
  have hd1 : (if ok then (F.st n).m.handOver c.pc.unlinks else (F.st n).m.giveBack ((F.st n).thr t).own).deref (F.addr n) = none := by
    cases ok
    · simp only [Bool.false_eq_true, ↓reduceIte]; rw [giveBack_deref]; split <;> [rfl; exact hxf]
    · simp only [↓reduceIte]; rw [handOver_deref]; exact hxf
  have hm2 := (hm1.create (t := t) (x := F.addr n) (upd_same _ _ _) hd1 (fun t' e => by
    rcases upd_some e with ⟨-, g⟩ | ⟨-, g⟩
    · cases g
    · obtain ⟨nd, hnd⟩ := Option.ne_none_iff_exists'.mp (h.unlinked_live g).1
      rw [h.mem.sub.live _ _ hnd] at hxf; cases hxf) (nx.builds (F.st n).m)).step_same hx
  refine h.assemble t ?_ ?_ ?_ ⟨⟨?_, ?_⟩, ?_⟩
  · rw [hF, hR]
    simp only [upd_fun (g := FThread.owned), upd_fun (g := FThread.unlinked)]
    have e1 : ∀ (f : Nat → Option Nat) a b, upd (upd f t a) t b = upd f t b := by
      intro f a b
      funext t'
      by_cases e : t' = t
      · subst e; rw [upd_same, upd_same]
      · rw [upd_other _ _ e, upd_other _ _ e, upd_other _ _ e]
    rw [e1] at hm2
    exact hm2
  · rw [hF]
    show (Mem.create _ _ _).clock + 1 = _
    rw [create_clock]
    cases ok
    · simp only [Bool.false_eq_true, ↓reduceIte, giveBack_clock]
    · simp only [↓reduceIte, handOver_clock]
  · intro t' e'
    refine ⟨by rw [hF]; exact upd_other _ _ e', by rw [hR], fun a ha => ?_⟩
    rw [hF]
    show (Mem.create _ _ _).deref a = _
    have g1 : (if ok then (F.st n).m.handOver c.pc.unlinks else (F.st n).m.giveBack ((F.st n).thr t).own).deref a = (F.st n).m.deref a := by
      cases hok : ok with
      | true => simp only [↓reduceIte, handOver_deref]
      | false =>
        subst hok
        simp only [Bool.false_eq_true, ↓reduceIte]
        rw [giveBack_deref, if_neg]
        intro ho
        exact e' (h.mem.inj t' t a ha (by simp only [FThread.owned, hg]; exact ho))
    cases hb : nx.builds (F.st n).m with
    | none => exact g1
    | some nd =>
      rw [create_deref, if_neg, g1]
      rintro rfl
      exact (h.mem.ownd t' _ ha).2.2 hxf
  · intro _
    rw [ef]
    refine ⟨hrt, fun hr => by simp only [next_builds_none hr, Option.map], fun c' hc' => ?_⟩
    simp only [hbuild c' hc']
    cases c'.pc.builds (R.st (n + 1)).m <;> rfl
  · intro w' ok' hg'; rw [ef] at hg'; cases hg'
  · intro c' a hc' _ ha
    rw [ef] at hc' ha
    simp only at hc' ha
    rw [← hbuild c' hc', hF]
    show (Mem.create _ _ _).deref a = _
    cases hb : nx.builds (F.st n).m with
    | none => rw [hb] at ha; cases ha
    | some nd =>
      rw [hb] at ha
      simp only [Option.map, Option.some.injEq] at ha
      subst ha
      rw [create_deref, if_pos rfl]

/-- The relation is preserved. -/
theorem FRel.next {F : FExec cfg} {R : RExec cfg} {n : Nat} (h : FRel F n (R.st n)) (h1 : R.lab n = F.coarseLab n (R.st n)) (h2 : R.addr n = F.cAddr n) (h3 : R.ev n = F.cEv n) :
    FRel F (n + 1) (R.st (n + 1)) := by
  cases hl : F.lab n with
  | pin t => exact h.calls (.inl hl) h1 h2
  | unpin t => exact h.calls (.inr (.inl hl)) h1 h2
  | call t r => exact h.calls (.inr (.inr (.inl ⟨r, hl⟩))) h1 h2
  | abort t => exact h.calls (.inr (.inr (.inr hl))) h1 h2
  | free x => exact h.collector (.inr ⟨x, hl⟩) h1 h2
  | idle => exact h.collector (.inl hl) h1 h2
  | tick t weak =>
    cases hg : ((F.st n).thr t).got with
    | none => exact h.access hl hg h1 h2 h3
    | some x => obtain ⟨w, ok⟩ := x; exact h.rest hl hg h1 h2

/-! ### The coarse execution -/

theorem FRel.zero (F : FExec cfg) : FRel F 0 (State.init : State K P) := by
  have e : ∀ t, (F.st 0).thr t = FThread.init := fun t => by rw [F.init]; rfl
  have em : (F.st 0).m = Mem.init := by rw [F.init]; rfl
  refine ⟨?_, (by rw [em]; rfl), (fun t c a hc => (by rw [e] at hc; cases hc)), fun t => ⟨fun _ => ?_, fun w ok hg => (by rw [e] at hg; cases hg)⟩⟩
  · simp only [e, em]
    refine ⟨⟨rfl, fun a nd h => h⟩, ?_, ?_, ?_, ?_, ?_, ?_, ?_⟩
    · intro a τ h; exact absurd rfl h
    · intro a τ h; exact absurd rfl h
    · intro a h; exact absurd rfl h
    · intro t a h; cases h
    · intro t t' a h; cases h
    · intro t a h; cases h
    · intro t t' a h; cases h
  · rw [e]; exact ⟨rfl, fun _ => rfl, fun c hc => (by cases hc)⟩

theorem FExec.sim (F : FExec cfg) (n : Nat) : (∀ i, i < n → rstep cfg (F.cSt i) (F.cAddr i) (F.cLab i) = some (F.cSt (i + 1), F.cEv i) ∧ (F.cLab i).enabled (F.cSt i) ∧ (F.cLab i).WF cfg) ∧
    FRel F n (F.cSt n) := by
  induction n with
  | zero => exact ⟨fun i hi => by omega, FRel.zero F⟩
  | succ n ih =>
    obtain ⟨ih1, ih2⟩ := ih
    obtain ⟨R, r1, -⟩ := RExec.ofPrefix (cfg := cfg) (st := F.cSt) (lab := F.cLab) (addr := F.cAddr) (ev := F.cEv) n rfl ih1
    have hn := r1 n (Nat.le_refl _)
    obtain ⟨s', e, g1, g2, g3⟩ := FRel.can (F := F) (R := R) (n := n) (by rw [hn]; exact ih2)
    rw [hn] at g1 g2 g3
    have hs' : F.cSt (n + 1) = s' := by simp only [FExec.cSt, g1]; rfl
    have he : F.cEv n = e := by
      have : rstep cfg (F.cSt n) (F.cAddr n) (F.cLab n) = some (s', e) := g1
      simp only [FExec.cEv, this]; rfl
    have hall : ∀ i, i < n + 1 → rstep cfg (F.cSt i) (F.cAddr i) (F.cLab i) = some (F.cSt (i + 1), F.cEv i) ∧ (F.cLab i).enabled (F.cSt i) ∧ (F.cLab i).WF cfg := by
      intro i hi
      rcases Nat.lt_or_ge i n with g | g
      · exact ih1 i g
      · have : i = n := by omega
        subst this
        rw [hs', he]
        exact ⟨g1, g2, g3⟩
    refine ⟨hall, ?_⟩
    obtain ⟨R', r1', r2'⟩ := RExec.ofPrefix (cfg := cfg) (st := F.cSt) (lab := F.cLab) (addr := F.cAddr) (ev := F.cEv) (n + 1) rfl hall
    obtain ⟨k1, k2, k3⟩ := r2' n (by omega)
    have := FRel.next (F := F) (R := R') (n := n) (by rw [r1' n (by omega)]; exact ih2) (by rw [k1, r1' n (by omega)]; rfl) k2 k3
    rw [r1' (n + 1) (by omega)] at this
    exact this

/-- The coarse execution. -/
def FExec.coarse (F : FExec cfg) : RExec cfg where
  st := F.cSt
  lab := F.cLab
  addr := F.cAddr
  ev := F.cEv
  init := rfl
  step := fun n => ((F.sim (n + 1)).1 n (by omega)).1
  enabled := fun n => ((F.sim (n + 1)).1 n (by omega)).2.1
  wf := fun n => ((F.sim (n + 1)).1 n (by omega)).2.2

theorem FExec.rel (F : FExec cfg) (n : Nat) : FRel F n (F.coarse.st n) := (F.sim n).2

end Contrie
