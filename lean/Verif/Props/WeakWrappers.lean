import Verif.Props.Locking
import Verif.Props.ForkJoin
import Verif.Props.WrapperAtomic
/-
C66: the calls of the wrapper types on weak memory, in programs that need not synchronise at all.
-/
set_option linter.unusedSectionVars false
namespace Contrie
variable {K P O V T α β : Type} [DecidableEq K]

/-! ### Steps that change the content -/

section
variable {cfg : Config K P} {E : CExec cfg}

/-- The content changes only in steps of calls that update the map, by what the call does, and only once for each call. -/
theorem CExec.change {n : Nat} (hn : n < E.len) : E.content (n + 1) = E.content n ∨
    ∃ t weak c lp, E.lab n = .tick t weak n ∧ ((E.st n).thr t).run = some c ∧ c.req = .op lp.op ∧ c.req.isUpdate = true ∧ c.inv = lp.id ∧ lp.id < n ∧
      E.lab lp.id = .call t (.op lp.op) ∧ E.W n = some lp ∧ (E.content n).apply cfg.key lp.op = (E.content (n + 1), lp.ret) := by
  simp only [← E.A_content]
  cases hw : E.W n with
  | none => exact .inl (E.A_none hn (Nat.lt_succ_self n) hw)
  | some lp =>
    obtain ⟨t, weak, c, h1, h2, h3, h4, h5, h6, h7, h8⟩ := E.W_ok hn hw
    obtain ⟨-, r2, -⟩ := CExec.run_ev (Nat.le_of_lt hn) h2
    have hreq : c.req = .op lp.op := by
      rw [h3, h6] at r2
      injection r2 with _ e
      exact e.symm
    cases hu : c.req.isUpdate with
    | true => exact .inr ⟨t, weak, c, lp, h1, h2, hreq, hu, h3, h5, h6, rfl, h7⟩
    | false =>
      left
      rw [hreq] at hu
      cases ho : lp.op with
      | get k => rw [ho] at h7; exact (congrArg Prod.fst h7).symm
      | insert p => rw [ho] at hu; cases hu
      | getOrInsert k f => rw [ho] at hu; cases hu
      | remove k => rw [ho] at hu; cases hu

/-- Elements are under their keys. -/
theorem CExec.keyed {n : Nat} (hn : n ≤ E.len) : (E.content n).Keyed cfg.key := by
  induction n with
  | zero =>
    have : E.content 0 = AMap.empty := by simp only [CExec.content, E.init]; rfl
    rw [this]; exact empty_keyed _
  | succ n ih =>
    rcases E.change (n := n) hn with e | ⟨t, weak, c, lp, -, -, -, -, -, h1, h2, -, h3⟩
    · rw [e]; exact ih (by omega)
    · have hw := E.wf lp.id (by omega)
      rw [h2] at hw
      exact apply_keyed (ih (by omega)) hw h3

/-- A change of one key is the work of a call on that key. -/
theorem CExec.change_key {n : Nat} (hn : n < E.len) {k : K} (h : E.content (n + 1) k ≠ E.content n k) : ∃ lp, E.W n = some lp ∧ lp.op.key cfg.key = k ∧
    lp.id < n ∧ E.ev lp.id = some (.inv lp.id (.op lp.op)) ∧ ∀ k', lp.op ≠ .get k' := by
  rcases E.change hn with e | ⟨t, weak, c, lp, h1, h2, h3, h4, h5, h6, h7, h8, h9⟩
  · exact absurd (congrFun e k) h
  · refine ⟨lp, h8, ?_, h6, E.ev_call (by omega) h7, ?_⟩
    · have e := congrFun (congrArg Prod.fst h9) k
      simp only at e
      apply Classical.byContradiction
      intro hne
      apply h
      rw [← e]
      cases ho : lp.op with
      | get k' => rfl
      | insert p => rw [ho] at hne; simp only [AMap.apply, AMap.set]; exact if_neg (fun e => hne e.symm)
      | getOrInsert k' f =>
        rw [ho] at hne
        simp only [AMap.apply]
        split
        · rfl
        · simp only [AMap.set]; exact if_neg (fun e => hne e.symm)
      | remove k' => rw [ho] at hne; simp only [AMap.apply, AMap.set]; exact if_neg (fun e => hne e.symm)
    · intro k' e
      rw [h3, e] at h4; cases h4

end

/-! ### Single-key calls -/

section
variable {key : P → K}

/-- Call `id` on map `m`, in progress until instant `j`, does its work on the content of instant `τ` and changes nothing; the changes of key `k` that were made after that (it knows nothing of them), up to its
return, are all the work of calls that its caller has not been told about (they do not happen before it). -/
structure CWorld.Glimpsed (W : CWorld key) (m id : Nat) (k : K) (τ j : Nat) : Prop where
  lt : τ < j
  missed : ∀ n, τ ≤ n → n < j → W.content (n + 1) m k ≠ W.content n m k →
    ∃ x o, x < n ∧ (W.ex m).ev x = some (.inv x (.op o)) ∧ o.key key = k ∧ (∀ k', o ≠ .get k') ∧ ¬ (W.ex m).Hb x id

theorem CWorld.Runs.atomic {W : CWorld key} {t i j m : Nat} {p : Prog K P α} {a : α} (h : W.Runs t p i j a) (hp : p.Single m) :
    ∃ id o, i ≤ id ∧ id < j ∧ (W.ex m).lab id = .call t (.op o) ∧ (∃ k, p = .call m (.op o) k) ∧
      ((∃ τ, id < τ ∧ τ < j ∧ p.Means key (W.content τ) a (upd (W.content τ) m (W.content (τ + 1) m))) ∨
       ((∀ q, o ≠ .insert q) ∧ ∃ τ, W.Glimpsed m id (o.key key) τ j ∧
          ∀ A : Nat → AMap K P, A m (o.key key) = W.content τ m (o.key key) → p.Means key A a A)) := by
  cases h with
  | ret => exact hp.elim
  | @call m' _ id j1 _ r x k _ g1 q1 hc g2 gj q2 hev hk =>
    cases r with
    | isEmpty => exact hp.elim
    | iter => exact hp.elim
    | op o =>
      obtain ⟨rfl, hp⟩ := hp
      have hle := hk.le
      have hs := W.same m'
      have hret : k x = .ret a := by
        have := hp x
        cases hkx : k x with
        | ret b => rw [hkx] at hk; cases hk; rfl
        | call => rw [hkx] at this; exact this.elim
        | wrong => rw [hkx] at hk; cases hk
      obtain ⟨t1, weak, τ1, c, c1, c2, c3, c4, c5, c6, c7⟩ := (W.ex m').ret (by omega) hev
      rw [hc] at c5
      injection c5 with e1 e2
      subst e1
      simp only [CExec.OutOK, ← e2] at c7
      obtain ⟨ret, rfl, c7, -⟩ := c7
      refine ⟨id, o, g1, by omega, hc, ⟨k, rfl⟩, ?_⟩
      rcases c7 with ⟨τ, b1, b2⟩ | ⟨b1, b2, v, σ, b3, b4⟩
      · left
        obtain ⟨-, -, -, -, -, -, -, h5, -⟩ := (W.ex m').W_ok (by omega) b2
        have h5 : c.inv < τ := h5
        refine ⟨τ, by omega, by omega, .call (x := .op ret) (A1 := W.content (τ + 1) m') ?_ (by rw [hret]; exact .ret)⟩
        have := (W.ex m').A_some (n := j1 + 1) (by omega) (by omega) b2
        rw [(W.ex m').A_content, (W.ex m').A_content] at this
        exact this
      · right
        have hσ := b3.lt
        refine ⟨b2, σ, ⟨by omega, ?_⟩, ?_⟩
        · intro n n1 n2 hch
          by_cases hnj : n < j1 + 1
          · obtain ⟨lp, w1, w2, w3, w4, w5⟩ := (W.ex m').change_key (by omega) hch
            refine ⟨lp.id, lp.op, w3, w4, w2, w5, fun hb => ?_⟩
            have := CExec.SawIt.after (n := j1 + 1) (by omega) (by omega) w1 w2 ⟨t, j1, _, _, hc, g2, by omega, hev, by rw [← c3]; exact b3⟩ hb
            omega
          · obtain ⟨lp, w1, w2, w3, w4, w5⟩ := (W.ex m').change_key (by omega) hch
            refine ⟨lp.id, lp.op, w3, w4, w2, w5, fun hb => ?_⟩
            obtain ⟨j', r', a1, a2, a3, a4⟩ := hb.ret (W.ex m')
            have := (W.ex m').W_res (by omega) w1 a1 a2
            omega
        · intro A hA
          have hv : A m' (o.key key) = v := by rw [hA, ← b3.val, (W.ex m').A_content]; rfl
          have := Prog.Means.call (key := key) (A := A) (m := m') (r := .op o) (x := .op ret) (A1 := A m') (k := k) (a := a) (A' := A) (b4 (A m') hv) (by rw [hret, upd_self]; exact .ret)
          exact this

/-- By instant `i`, session `t` has been told (by any synchronisation) of all calls that may change key `k` of map `m` and were invoked before. -/
def CWorld.Told (W : CWorld key) (m t i : Nat) (k : K) : Prop :=
  ∀ x o, x < i → (W.ex m).ev x = some (.inv x (.op o)) → o.key key = k → (∀ k', o ≠ .get k') →
    ∃ t' j' r weak τ, j' < W.len ∧ (W.ex m).lab j' = .tick t' weak τ ∧ (W.ex m).ev j' = some (.res x r) ∧ HB (W.ex m).lab W.len (t', j' + 1) (t, i)

/-- One who was told does not glimpse the past. -/
theorem CWorld.Told.present {W : CWorld key} {m t i j id τ : Nat} {k : K} {o : Op K P} (h : W.Told m t i k) (hi : i ≤ id) (hid : id < j) (hj : j ≤ W.len)
    (hc : (W.ex m).lab id = .call t (.op o)) (hg : W.Glimpsed m id k τ j) : ∃ n, i ≤ n ∧ n < j ∧ W.content n m k = W.content τ m k := by
  by_cases hτ : i ≤ τ
  · exact ⟨τ, hτ, hg.lt, rfl⟩
  · have : ∀ d, τ + d ≤ i → W.content (τ + d) m k = W.content τ m k := by
      intro d
      induction d with
      | zero => intro _; rfl
      | succ d ih =>
        intro hd
        rw [← ih (by omega)]
        apply Classical.byContradiction
        intro hne
        obtain ⟨x, o', h1, h2, h3, h4, h5⟩ := hg.missed (τ + d) (by omega) (by omega) hne
        obtain ⟨t', j', r, weak, τ', g1, g2, g3, g4⟩ := h x o' (by omega) h2 h3 h4
        exact h5 ⟨t', t, j', r, _, weak, τ', by rw [W.same]; exact g1, g2, g3, by rw [W.same]; omega, hc, by rw [W.same]; exact .trans g4 (.po t hi)⟩
    refine ⟨i, Nat.le_refl _, by omega, ?_⟩
    have := this (i - τ) (by omega)
    rwa [show τ + (i - τ) = i by omega] at this

theorem CWorld.keyed (W : CWorld key) {i : Nat} (hi : i ≤ W.len) (m : Nat) : (W.content i m).Keyed key :=
  (W.ex m).keyed (n := i) (by rw [W.same]; exact hi)

end

/-- The key of a call that works on a single key. -/
def MapCall.theKey (eqv : O → K) : MapCall K O V → Option K
  | .insert o _ => some (eqv o)
  | .getOrInsert o _ => some (eqv o)
  | .getOrInsertWith o _ => some (eqv o)
  | .getOrInsertDefault o => some (eqv o)
  | .get k => some k
  | .remove k => some k
  | .isEmpty => none
  | .iter => none
  | .extend _ => none

def SetCall.theKey (eqv : T → K) : SetCall K T → Option K
  | .insert v => some (eqv v)
  | .get k => some k
  | .contains k => some k
  | .remove k => some k
  | .isEmpty => none
  | .iter => none
  | .extend _ => none

theorem MapCall.conMap_single [Inhabited V] {eqv : O → K} {m : Nat} {addr : Nat → Nat} {c : MapCall K O V} {k : K} (hk : c.theKey eqv = some k) :
    (c.conMap eqv m addr).Single m ∧ ∀ o f, c.conMap eqv m addr = .call m (.op o) f → o.key (ConMap.keyOf eqv) = k ∧ ((∃ o v, c = .insert o v) → ∃ q, o = .insert q) := by
  cases c with
  | isEmpty | iter | extend => cases hk
  | insert a b =>
    refine ⟨Prog.Single.opt, fun o f e => ?_⟩
    cases e; cases hk; exact ⟨rfl, fun _ => ⟨_, rfl⟩⟩
  | get | remove =>
    refine ⟨Prog.Single.opt, fun o f e => ?_⟩
    cases e; cases hk; exact ⟨rfl, fun ⟨_, _, e⟩ => by cases e⟩
  | getOrInsert | getOrInsertWith | getOrInsertDefault =>
    refine ⟨Prog.Single.eon, fun o f e => ?_⟩
    cases e; cases hk; exact ⟨rfl, fun ⟨_, _, e⟩ => by cases e⟩

theorem MapCall.cloneConMap_single [Inhabited V] {eqv : O → K} {m : Nat} {c : MapCall K O V} {k : K} (hk : c.theKey eqv = some k) :
    (c.cloneConMap eqv m).Single m ∧ ∀ o f, c.cloneConMap eqv m = .call m (.op o) f → o.key (CloneConMap.keyOf eqv) = k ∧ ((∃ o v, c = .insert o v) → ∃ q, o = .insert q) := by
  cases c with
  | isEmpty | iter | extend => cases hk
  | insert a b =>
    refine ⟨Prog.Single.opt, fun o f e => ?_⟩
    cases e; cases hk; exact ⟨rfl, fun _ => ⟨_, rfl⟩⟩
  | get | remove =>
    refine ⟨Prog.Single.opt, fun o f e => ?_⟩
    cases e; cases hk; exact ⟨rfl, fun ⟨_, _, e⟩ => by cases e⟩
  | getOrInsert | getOrInsertWith | getOrInsertDefault =>
    refine ⟨Prog.Single.eon, fun o f e => ?_⟩
    cases e; cases hk; exact ⟨rfl, fun ⟨_, _, e⟩ => by cases e⟩

theorem SetCall.conSet_single {eqv : T → K} {m : Nat} {c : SetCall K T} {k : K} (hk : c.theKey eqv = some k) :
    (c.conSet m).Single m ∧ ∀ o f, c.conSet m = .call m (.op o) f → o.key eqv = k ∧ ((∃ v, c = .insert v) → ∃ q, o = .insert q) := by
  cases c with
  | isEmpty | iter | extend => cases hk
  | insert a =>
    refine ⟨Prog.Single.opt, fun o f e => ?_⟩
    cases e; cases hk; exact ⟨rfl, fun _ => ⟨_, rfl⟩⟩
  | get | remove | contains =>
    refine ⟨Prog.Single.opt, fun o f e => ?_⟩
    cases e; cases hk; exact ⟨rfl, fun ⟨_, e⟩ => by cases e⟩

/-- **C66** for `ConMap`: on weak memory, whatever the threads do and without any synchronisation, a call of `ConMap` on a single key
* either takes effect at an instant `τ` during the call: it returns what it returns on a plain map with the content of that instant and changes it like that,
* or (this is not the case for `insert`) it changes nothing, and returns what it returns on a plain map with the content of an instant `τ` before it returned; this is
possibly an instant before it was called, but then all that has been done to the key since was done by calls it has not been told about. -/
theorem C66_conmap [Inhabited V] {eqv : O → K} (W : CWorld (ConMap.keyOf (V := V) eqv)) {t i j m : Nat} {addr : Nat → Nat} {c : MapCall K O V} {k : K}
    (hk : c.theKey eqv = some k) {r : MapRet (Arc O V)} (h : W.Runs t (c.conMap eqv m addr) i j r) :
    (∃ τ, i ≤ τ ∧ τ < j ∧ c.Spec eqv (fun n => Arc.mk (addr n)) (W.content τ m) r (W.content (τ + 1) m)) ∨
    ((∀ o v, c ≠ .insert o v) ∧ ∃ id τ rq, i ≤ id ∧ id < j ∧ (W.ex m).lab id = .call t rq ∧ W.Glimpsed m id k τ j ∧
      c.Spec eqv (fun n => Arc.mk (addr n)) (W.content τ m) r (W.content τ m)) := by
  obtain ⟨s1, s2⟩ := MapCall.conMap_single (m := m) (addr := addr) hk
  have hj := h.le
  obtain ⟨id, o, h1, h2, h3, ⟨f, h4⟩, ⟨τ, a1, a2, a3⟩ | ⟨a1, τ, a2, a3⟩⟩ := h.atomic s1
  · left
    have := (MapCall.conMap_means a3 (W.keyed (i := τ) (by omega) m)).1
    rw [upd_same] at this
    exact ⟨τ, by omega, a2, this⟩
  · right
    obtain ⟨e, hi⟩ := s2 o f h4
    rw [e] at a2
    have hτ := a2.lt
    refine ⟨fun a b e => ?_, id, τ, _, h1, h2, h3, a2, (MapCall.conMap_means (a3 (W.content τ) rfl) (W.keyed (i := τ) (by omega) m)).1⟩
    obtain ⟨q, e⟩ := hi ⟨a, b, e⟩
    exact a1 q e

/-- **C66** for `CloneConMap`. -/
theorem C66_cloneconmap [Inhabited V] {eqv : O → K} (W : CWorld (CloneConMap.keyOf (V := V) eqv)) {t i j m : Nat} {c : MapCall K O V} {k : K}
    (hk : c.theKey eqv = some k) {r : MapRet (O × V)} (h : W.Runs t (c.cloneConMap eqv m) i j r) :
    (∃ τ, i ≤ τ ∧ τ < j ∧ c.Spec eqv (fun _ => Prod.mk) (W.content τ m) r (W.content (τ + 1) m)) ∨
    ((∀ o v, c ≠ .insert o v) ∧ ∃ id τ rq, i ≤ id ∧ id < j ∧ (W.ex m).lab id = .call t rq ∧ W.Glimpsed m id k τ j ∧
      c.Spec eqv (fun _ => Prod.mk) (W.content τ m) r (W.content τ m)) := by
  obtain ⟨s1, s2⟩ := MapCall.cloneConMap_single (m := m) hk
  have hj := h.le
  obtain ⟨id, o, h1, h2, h3, ⟨f, h4⟩, ⟨τ, a1, a2, a3⟩ | ⟨a1, τ, a2, a3⟩⟩ := h.atomic s1
  · left
    have := (MapCall.cloneConMap_means a3 (W.keyed (i := τ) (by omega) m)).1
    rw [upd_same] at this
    exact ⟨τ, by omega, a2, this⟩
  · right
    obtain ⟨e, hi⟩ := s2 o f h4
    rw [e] at a2
    have hτ := a2.lt
    refine ⟨fun a b e => ?_, id, τ, _, h1, h2, h3, a2, (MapCall.cloneConMap_means (a3 (W.content τ) rfl) (W.keyed (i := τ) (by omega) m)).1⟩
    obtain ⟨q, e⟩ := hi ⟨a, b, e⟩
    exact a1 q e

/-- **C66** for `ConSet`. -/
theorem C66_conset {eqv : T → K} (W : CWorld eqv) {t i j m : Nat} {c : SetCall K T} {k : K} (hk : c.theKey eqv = some k) {r : MapRet T} (h : W.Runs t (c.conSet m) i j r) :
    (∃ τ, i ≤ τ ∧ τ < j ∧ c.Spec eqv (fun v => W.content τ m (eqv v) = some v) r (fun v => W.content (τ + 1) m (eqv v) = some v)) ∨
    ((∀ v, c ≠ .insert v) ∧ ∃ id τ rq, i ≤ id ∧ id < j ∧ (W.ex m).lab id = .call t rq ∧ W.Glimpsed m id k τ j ∧
      c.Spec eqv (fun v => W.content τ m (eqv v) = some v) r (fun v => W.content τ m (eqv v) = some v)) := by
  obtain ⟨s1, s2⟩ := SetCall.conSet_single (m := m) hk
  have hj := h.le
  obtain ⟨id, o, h1, h2, h3, ⟨f, h4⟩, ⟨τ, a1, a2, a3⟩ | ⟨a1, τ, a2, a3⟩⟩ := h.atomic s1
  · left
    have := (SetCall.conSet_means a3 (W.keyed (i := τ) (by omega) m)).1
    rw [upd_same] at this
    exact ⟨τ, by omega, a2, this⟩
  · right
    obtain ⟨e, hi⟩ := s2 o f h4
    rw [e] at a2
    have hτ := a2.lt
    refine ⟨fun a e => ?_, id, τ, _, h1, h2, h3, a2, (SetCall.conSet_means (a3 (W.content τ) rfl) (W.keyed (i := τ) (by omega) m)).1⟩
    obtain ⟨q, e⟩ := hi ⟨a, e⟩
    exact a1 q e

/-- **C66**: if the caller has been told of all earlier calls that may change the key (others may be changing it during the call, without any synchronisation), the call is atomic, as on
sequentially consistent memory (C37). -/
theorem C66_conmap_told [Inhabited V] {eqv : O → K} (W : CWorld (ConMap.keyOf (V := V) eqv)) {t i j m : Nat} {addr : Nat → Nat} {c : MapCall K O V} {k : K}
    (hk : c.theKey eqv = some k) {r : MapRet (Arc O V)} (h : W.Runs t (c.conMap eqv m addr) i j r) (ht : W.Told m t i k) :
    ∃ τ M', i ≤ τ ∧ τ < j ∧ c.Spec eqv (fun n => Arc.mk (addr n)) (W.content τ m) r M' ∧ (M' = W.content (τ + 1) m ∨ M' = W.content τ m) := by
  obtain ⟨s1, s2⟩ := MapCall.conMap_single (m := m) (addr := addr) hk
  have hj := h.le
  obtain ⟨id, o, h1, h2, h3, ⟨f, h4⟩, ⟨τ, a1, a2, a3⟩ | ⟨a1, τ, a2, a3⟩⟩ := h.atomic s1
  · have := (MapCall.conMap_means a3 (W.keyed (i := τ) (by omega) m)).1
    rw [upd_same] at this
    exact ⟨τ, _, by omega, a2, this, .inl rfl⟩
  · obtain ⟨e, hi⟩ := s2 o f h4
    rw [e] at a2 a3
    obtain ⟨n, n1, n2, n3⟩ := ht.present h1 h2 hj.2 h3 a2
    exact ⟨n, _, n1, n2, (MapCall.conMap_means (a3 (W.content n) n3) (W.keyed (i := n) (by omega) m)).1, .inr rfl⟩

/-- **C66** for `CloneConMap`, if the caller was told. -/
theorem C66_cloneconmap_told [Inhabited V] {eqv : O → K} (W : CWorld (CloneConMap.keyOf (V := V) eqv)) {t i j m : Nat} {c : MapCall K O V} {k : K}
    (hk : c.theKey eqv = some k) {r : MapRet (O × V)} (h : W.Runs t (c.cloneConMap eqv m) i j r) (ht : W.Told m t i k) :
    ∃ τ M', i ≤ τ ∧ τ < j ∧ c.Spec eqv (fun _ => Prod.mk) (W.content τ m) r M' ∧ (M' = W.content (τ + 1) m ∨ M' = W.content τ m) := by
  obtain ⟨s1, s2⟩ := MapCall.cloneConMap_single (m := m) hk
  have hj := h.le
  obtain ⟨id, o, h1, h2, h3, ⟨f, h4⟩, ⟨τ, a1, a2, a3⟩ | ⟨a1, τ, a2, a3⟩⟩ := h.atomic s1
  · have := (MapCall.cloneConMap_means a3 (W.keyed (i := τ) (by omega) m)).1
    rw [upd_same] at this
    exact ⟨τ, _, by omega, a2, this, .inl rfl⟩
  · obtain ⟨e, hi⟩ := s2 o f h4
    rw [e] at a2 a3
    obtain ⟨n, n1, n2, n3⟩ := ht.present h1 h2 hj.2 h3 a2
    exact ⟨n, _, n1, n2, (MapCall.cloneConMap_means (a3 (W.content n) n3) (W.keyed (i := n) (by omega) m)).1, .inr rfl⟩

/-- **C66** for `ConSet`, if the caller was told. -/
theorem C66_conset_told {eqv : T → K} (W : CWorld eqv) {t i j m : Nat} {c : SetCall K T} {k : K} (hk : c.theKey eqv = some k) {r : MapRet T}
    (h : W.Runs t (c.conSet m) i j r) (ht : W.Told m t i k) :
    ∃ τ S', i ≤ τ ∧ τ < j ∧ c.Spec eqv (fun v => W.content τ m (eqv v) = some v) r S' ∧
      (S' = (fun v => W.content (τ + 1) m (eqv v) = some v) ∨ S' = (fun v => W.content τ m (eqv v) = some v)) := by
  obtain ⟨s1, s2⟩ := SetCall.conSet_single (m := m) hk
  have hj := h.le
  obtain ⟨id, o, h1, h2, h3, ⟨f, h4⟩, ⟨τ, a1, a2, a3⟩ | ⟨a1, τ, a2, a3⟩⟩ := h.atomic s1
  · have := (SetCall.conSet_means a3 (W.keyed (i := τ) (by omega) m)).1
    rw [upd_same] at this
    exact ⟨τ, _, by omega, a2, this, .inl rfl⟩
  · obtain ⟨e, hi⟩ := s2 o f h4
    rw [e] at a2 a3
    obtain ⟨n, n1, n2, n3⟩ := ht.present h1 h2 hj.2 h3 a2
    exact ⟨n, _, n1, n2, (SetCall.conSet_means (a3 (W.content n) n3) (W.keyed (i := n) (by omega) m)).1, .inr rfl⟩

/-! ### Extending a map -/

section
variable {key : P → K}

theorem CWorld.Quiet.sub {W : CWorld key} {t i j i' j' : Nat} (h : W.Quiet t i j) (h1 : i ≤ i') (h2 : j' ≤ j) : W.Quiet t i' j' :=
  fun n a b => h n (by omega) (by omega)

theorem CWorld.Runs.bind {W : CWorld key} {t i j : Nat} {p : Prog K P α} {f : α → Prog K P β} {b : β} (h : W.Runs t (p.bind f) i j b) :
    ∃ a j1, W.Runs t p i j1 a ∧ W.Runs t (f a) j1 j b := by
  induction p generalizing i with
  | ret a =>
    have := h.le
    exact ⟨a, i, .ret (Nat.le_refl _) (by omega) (fun n a b => by omega), h⟩
  | wrong => cases h
  | call m r k ih =>
    cases h with
    | @call _ _ id j1 _ _ x _ _ g1 q1 hc g2 gj q2 hev hk =>
      obtain ⟨a, j2, h1, h2⟩ := ih x hk
      exact ⟨a, j2, .call g1 q1 hc g2 gj q2 hev h1, h2⟩

/-- The calls of the session are those of the program. -/
theorem CWorld.Runs.calls {W : CWorld key} {t i j : Nat} {p : Prog K P α} {a : α} (h : W.Runs t p i j a) {n m : Nat} {r : Req K P}
    (h1 : i ≤ n) (h2 : n < j) (hl : (W.ex m).lab n = .call t r) : p.Calls m r := by
  induction h with
  | ret h _ hq => exact absurd hl (hq n h1 h2 m r)
  | @call m0 i id j j' r0 x k a g1 q1 hc g2 gj q2 hev hk ih =>
    by_cases b1 : n < id
    · exact absurd hl (q1 n h1 b1 m r)
    · by_cases b2 : n = id
      · subst b2
        rcases W.sole n m m0 (by omega) (by rw [hl]; simp) (by rw [hc]; simp) with this | ⟨_, _, _, e⟩
        · subst this
          rw [hl] at hc; cases hc; exact Or.inl ⟨rfl, rfl⟩
        · rw [hl] at e; cases e
      · by_cases b3 : n < j + 1
        · exact absurd hl (q2 n (by omega) b3 m r)
        · exact Or.inr ⟨x, ih (by omega) h2⟩

/-- Each element is inserted in the time the program runs. -/
theorem CWorld.Runs.inserted {W : CWorld key} {t i j m : Nat} {l : List P}
    (h : W.Runs t (Prog.forEach (fun p => Prog.opt m (.insert p) (fun r => r)) l) i j ()) {p : P} (hp : p ∈ l) :
    ∃ id j' x, i ≤ id ∧ j' < j ∧ (W.ex m).lab id = .call t (.op (.insert p)) ∧ (W.ex m).ev j' = some (.res id x) := by
  induction l generalizing i with
  | nil => cases hp
  | cons q l ih =>
    obtain ⟨a, j1, h1, h2⟩ := CWorld.Runs.bind h
    have hle1 := h1.le
    have hle2 := h2.le
    rcases List.mem_cons.1 hp with rfl | hp
    · cases h1 with
      | @call _ _ id j2 _ _ x k _ g1 q1 hc g2 gj q2 hev hk =>
        have := hk.le
        exact ⟨id, j2, x, g1, by omega, hc, hev⟩
    · obtain ⟨id, j', x, a1, a2, a3, a4⟩ := ih h2 hp
      exact ⟨id, j', x, by omega, a2, a3, a4⟩

/-- Common part: several sessions insert elements into map `m`, each one its part, in any interleaving and without synchronisation, and nobody else is updating map `m` meanwhile. -/
theorem CWorld.par_inserts (W : CWorld key) {i j m : Nat} (hij : i ≤ j) (hjl : j ≤ W.len) (parts : List (Nat × List P))
    (hrun : ∀ x ∈ parts, W.Runs x.1 (Prog.forEach (fun p => Prog.opt m (.insert p) (fun r => r)) x.2) i j ())
    (hidle : ∀ x ∈ parts, (((W.ex m).st i).thr x.1).run = none)
    (halone : ∀ n, i ≤ n → n < j → ∀ t w τ c, (W.ex m).lab n = .tick t w τ → (((W.ex m).st n).thr t).run = some c → c.req.isUpdate = true → ∃ l, (t, l) ∈ parts)
    (k : K) :
    ((∃ x ∈ parts, ∃ p ∈ x.2, key p = k) → ∃ x ∈ parts, ∃ p ∈ x.2, key p = k ∧ W.content j m k = some p) ∧
      ((∀ x ∈ parts, ∀ p ∈ x.2, key p ≠ k) → W.content j m k = W.content i m k) := by
  have hs := W.same m
  have hstep : ∀ n, i ≤ n → n < j → W.content (n + 1) m k = W.content n m k ∨
      ∃ x ∈ parts, ∃ p ∈ x.2, key p = k ∧ W.content (n + 1) m k = some p := by
    intro n a b
    rcases (W.ex m).change (n := n) (by omega) with e | ⟨t, w, c, lp, f1, f2, f3, f4, f5, f6, f7, f8, f9⟩
    · exact .inl (congrFun e k)
    · obtain ⟨l, hl⟩ := halone n a b t w n c f1 f2 f4
      have hge : i ≤ lp.id := by
        by_cases hlt : i ≤ lp.id
        · exact hlt
        · obtain ⟨c', g1, -⟩ := CExec.since (E := W.ex m) (by omega) f2 (τ := i) (by omega) a
          rw [hidle _ hl] at g1; cases g1
      obtain ⟨p, hp, e⟩ := ((hrun _ hl).calls hge (by omega) f7).inserts
      injection e with e
      rw [e] at f9
      have hc : W.content (n + 1) m k = AMap.set (W.content n m) (key p) (some p) k := (congrFun (congrArg Prod.fst f9) k).symm
      simp only [AMap.set] at hc
      by_cases ek : k = key p
      · rw [if_pos ek] at hc
        exact Or.inr ⟨_, hl, p, hp, ek.symm, hc⟩
      · rw [if_neg ek] at hc
        exact Or.inl hc
  refine ⟨?_, ?_⟩
  · rintro ⟨x, hx, p, hp, e⟩
    obtain ⟨id, j', r, a1, a2, a3, a4⟩ := (hrun x hx).inserted hp
    have hsome : ∃ τ, i ≤ τ ∧ τ ≤ j ∧ ∃ x ∈ parts, ∃ p ∈ x.2, key p = k ∧ W.content τ m k = some p := by
      have hid : id < (W.ex m).len := by
        obtain ⟨_, _, _, _, _, _, _, g4, -⟩ := (W.ex m).ret (by omega) a4
        omega
      obtain ⟨τ, lp, b1, b2, b3, b4, b5⟩ := (W.ex m).insert_effect (p := p) ((W.ex m).ev_call hid a3) (by omega) a4
      refine ⟨τ + 1, by omega, by omega, x, hx, p, hp, e, ?_⟩
      have h9 := (W.ex m).A_some (n := j' + 1) (by omega) (by omega) b3
      rw [(W.ex m).A_content, (W.ex m).A_content, b5] at h9
      have hc : W.content (τ + 1) m k = AMap.set (W.content τ m) (key p) (some p) k := (congrFun (congrArg Prod.fst h9) k).symm
      rw [hc, AMap.set, if_pos e.symm]
    obtain ⟨τ, b1, b2, hτ⟩ := hsome
    have : ∀ n, τ ≤ n → n ≤ j → ∃ x ∈ parts, ∃ p ∈ x.2, key p = k ∧ W.content n m k = some p := by
      intro n
      induction n with
      | zero => intro a b; rw [show τ = 0 by omega] at hτ; exact hτ
      | succ n ih =>
        intro a b
        by_cases e : τ = n + 1
        · rw [e] at hτ; exact hτ
        · obtain ⟨x, hx, p, hp, e1, e2⟩ := ih (by omega) (by omega)
          rcases hstep n (by omega) (by omega) with h | h
          · exact ⟨x, hx, p, hp, e1, by rw [h]; exact e2⟩
          · exact h
    exact this j b2 (Nat.le_refl _)
  · intro hno
    have : ∀ n, i ≤ n → n ≤ j → W.content n m k = W.content i m k := by
      intro n
      induction n with
      | zero => intro a b; rw [show i = 0 by omega]
      | succ n ih =>
        intro a b
        by_cases e : i = n + 1
        · rw [e]
        · rcases hstep n (by omega) (by omega) with h | ⟨x, hx, p, hp, e1, -⟩
          · rw [h, ih (by omega) (by omega)]
          · exact absurd e1 (hno x hx p hp)
    exact this j hij (Nat.le_refl _)

/-- Between the instants `i` and `j`, session `t` alone updates map `m`; it is not in the middle of a call on this map at the beginning. -/
structure CWorld.Alone (W : CWorld key) (m t i j : Nat) : Prop where
  idle : (((W.ex m).st i).thr t).run = none
  alone : ∀ n, i ≤ n → n < j → ∀ t' w τ c, (W.ex m).lab n = .tick t' w τ → (((W.ex m).st n).thr t').run = some c → c.req.isUpdate = true → t' = t

/-- A session that does not call remains idle. -/
theorem CWorld.Quiet.idle {W : CWorld key} {t i j m : Nat} (h : W.Quiet t i j) (hij : i ≤ j) (hj : j ≤ W.len) (h0 : (((W.ex m).st i).thr t).run = none) :
    (((W.ex m).st j).thr t).run = none := by
  induction hij with
  | refl => exact h0
  | @step j hij ih =>
    have h1 := ih (h.sub (Nat.le_refl _) (Nat.le_succ _)) (by omega)
    cases hc : (((W.ex m).st (j + 1)).thr t).run with
    | none => rfl
    | some c =>
      rcases cstep_run_full ((W.ex m).step j (by rw [W.same]; omega)) hc with ⟨e, -⟩ | ⟨c0, _, _, _, _, e, -⟩ | ⟨r, e, -⟩
      · rw [h1] at e; cases e
      · rw [h1] at e; cases e
      · exact absurd e (h j hij (Nat.lt_succ_self j) m r)

/-- One insertion, by the only session that updates the map. -/
theorem CWorld.insert_alone (W : CWorld key) {t i j m : Nat} {p : P} {r : Option P} (h : W.Runs t (Prog.opt m (.insert p) (fun r => r)) i j r) (hu : W.Alone m t i j) :
    W.content j m = AMap.set (W.content i m) (key p) (some p) ∧ (((W.ex m).st j).thr t).run = none := by
  have hs := W.same m
  cases h with
  | @call _ _ id j1 _ _ x k _ g1 q1 hc g2 gj q2 hev hk =>
    have hle := hk.le
    have hquiet : W.Quiet t (j1 + 1) j := by
      cases x with
      | op r => cases r with
        | opt o => cases hk with | ret _ _ hq => exact hq
        | eon o => cases hk
      | bool b => cases hk
      | list l => cases hk
    obtain ⟨t1, weak, τ1, c, c1, c2, c3, c4, c5, c6, -⟩ := (W.ex m).ret (by omega) hev
    rw [hc] at c5
    injection c5 with e1 e2
    subst e1
    obtain ⟨τ, lp, b1, b2, b3, b4, b5⟩ := (W.ex m).insert_effect (p := p) ((W.ex m).ev_call (by omega) hc) (by omega) hev
    refine ⟨?_, hquiet.idle hle.1 hle.2 c6⟩
    have hother : ∀ n, i ≤ n → n < j → n ≠ τ → W.content (n + 1) m = W.content n m := by
      intro n n1 n2 hne
      rcases (W.ex m).change (n := n) (by omega) with e | ⟨t', w, c', lp', f1, f2, f3, f4, f5, f6, f7, f8, f9⟩
      · exact e
      · have := hu.alone n n1 n2 t' w n c' f1 f2 f4
        subst this
        have hge : i ≤ lp'.id := by
          by_cases hlt : i ≤ lp'.id
          · exact hlt
          · obtain ⟨c'', k1, -⟩ := CExec.since (E := W.ex m) (by omega) f2 (τ := i) (by omega) n1
            rw [hu.idle] at k1; cases k1
        have hid : lp'.id = id := by
          apply Classical.byContradiction
          intro hn
          by_cases d1 : lp'.id < id
          · exact q1 _ hge d1 m _ f7
          · by_cases d2 : lp'.id < j1 + 1
            · exact q2 _ (by omega) d2 m _ f7
            · exact hquiet _ (by omega) (by omega) m _ f7
        exact absurd ((W.ex m).W_unique (by omega) (by omega) f8 b3 (by rw [hid, b4])) hne
    have hconst : ∀ a b, i ≤ a → a ≤ b → b ≤ j → (∀ n, a ≤ n → n < b → n ≠ τ) → W.content b m = W.content a m := by
      intro a b ha hab hb hno
      induction hab with
      | refl => rfl
      | @step b hab ih =>
        have hab' : a ≤ b := hab
        rw [hother b (by omega) (by omega) (hno b hab (Nat.lt_succ_self b)), ih (by omega) (fun n a1 a2 => hno n a1 (by omega))]
    have h9 := (W.ex m).A_some (n := j1 + 1) (by omega) (by omega) b3
    rw [(W.ex m).A_content, (W.ex m).A_content, b5] at h9
    have h9 : AMap.set (W.content τ m) (key p) (some p) = W.content (τ + 1) m := congrArg Prod.fst h9
    rw [hconst (τ + 1) j (by omega) (by omega) (Nat.le_refl _) (fun n _ _ => by omega), ← h9, hconst i τ (Nat.le_refl _) (by omega) (by omega) (fun n _ _ => by omega)]

/-- Several insertions, by the only session that updates the map. -/
theorem CWorld.inserts (W : CWorld key) {t i j m : Nat} {l : List P}
    (h : W.Runs t (Prog.forEach (fun p => Prog.opt m (.insert p) (fun r => r)) l) i j ()) (hu : W.Alone m t i j) :
    W.content j m = fun k => (lastWith key l k).or (W.content i m k) := by
  induction l generalizing i with
  | nil =>
    have hle := h.le
    have hs := W.same m
    cases h with
    | ret _ _ hq =>
      have : ∀ n, i ≤ n → n ≤ j → W.content n m = W.content i m := by
        intro n hn
        induction hn with
        | refl => intro _; rfl
        | @step n hn ih =>
          intro hnj
          rw [← ih (by omega)]
          rcases (W.ex m).change (n := n) (by omega) with e | ⟨t', w, c', lp', f1, f2, f3, f4, f5, f6, f7, f8, f9⟩
          · exact e
          · have := hu.alone n hn (by omega) t' w n c' f1 f2 f4
            subst this
            rw [CWorld.Quiet.idle (m := m) (hq.sub (Nat.le_refl _) (Nat.le_of_lt hnj)) hn (by omega) hu.idle] at f2
            cases f2
      rw [this j hle.1 (Nat.le_refl _)]
      funext k
      rfl
  | cons p l ih =>
    obtain ⟨a, j1, h1, h2⟩ := CWorld.Runs.bind h
    have l1 := h1.le
    have l2 := h2.le
    obtain ⟨e1, e2⟩ := W.insert_alone h1 ⟨hu.idle, fun n a b => hu.alone n a (by omega)⟩
    rw [ih h2 ⟨e2, fun n a b => hu.alone n (by omega) b⟩, e1]
    funext k
    rw [lastWith_cons, Option.or_assoc]
    congr 1
    simp only [AMap.set]
    by_cases e : key p = k
    · rw [if_pos e, if_pos e.symm]; rfl
    · rw [if_neg e, if_neg (fun e' => e e'.symm)]; rfl

/-- Nobody starts updating map `m` between the instants `i` and `j`. -/
def CWorld.NotUpdated (W : CWorld key) (m i j : Nat) : Prop := ∀ n, i ≤ n → n < j → ∀ t r, (W.ex m).lab n = .call t r → r.isUpdate = false

/-- Cloning, by one who was told of all that was done to the original. -/
theorem CWorld.clone_told (W : CWorld key) {t i j src dst : Nat}
    (h : W.Runs t ((Prog.iter src (fun l => l)).bind (fun l => Prog.forEach (fun p => Prog.opt dst (.insert p) (fun r => r)) l)) i j ())
    (hnew : ∀ k, W.content i dst k = none) (hu : W.Alone dst t i j) (hne : dst ≠ src) (ht : ∀ k, W.Told src t i k) (hsrc : W.NotUpdated src i j) :
    W.content j dst = W.content i src ∧ W.content j src = W.content i src := by
  obtain ⟨out, j1, h1, h2⟩ := CWorld.Runs.bind h
  have l1 := h1.le
  have l2 := h2.le
  have hs := W.same src
  have hd := W.same dst
  -- the original does not change
  have hconst : ∀ n, i ≤ n → n ≤ j → W.content n src = W.content i src := by
    intro n hn
    induction hn with
    | refl => intro _; rfl
    | @step n hn ih =>
      intro hnj
      have hn' : i ≤ n := hn
      rw [← ih (by omega)]
      funext k
      apply Classical.byContradiction
      intro hch
      obtain ⟨lp, w1, w2, w3, w4, w5⟩ := (W.ex src).change_key (n := n) (by omega) hch
      obtain ⟨t0, _, c, f1, f2, f3, f4, f5, f6, -⟩ := (W.ex src).W_ok (by omega) w1
      by_cases hlt : i ≤ lp.id
      · have := hsrc lp.id hlt (by omega) _ _ f6
        cases ho : lp.op with
        | get k' => exact w5 k' ho
        | insert p => rw [ho] at this; cases this
        | getOrInsert k' f => rw [ho] at this; cases this
        | remove k' => rw [ho] at this; cases this
      · obtain ⟨t', j', r, weak, τ', g1, g2, g3, g4⟩ := ht k lp.id lp.op (by omega) w4 w2 w5
        have hle := (W.ex src).W_res (by omega) w1 (by omega) g3
        rw [← hs] at g4
        have := ((W.ex src).hb g4 (by simp only; omega)).1
        simp only at this
        omega
  refine ⟨?_, hconst j (by omega) (Nat.le_refl _)⟩
  cases h1 with
  | @call _ _ id j0 _ _ x k _ g1 q1 hc g2 gj q2 hev hk =>
    have hle := hk.le
    cases x with
    | op r => cases hk
    | bool b => cases hk
    | list l =>
      have hquiet : W.Quiet t (j0 + 1) j1 ∧ out = l := by cases hk with | ret _ _ hq => exact ⟨hq, rfl⟩
      obtain ⟨hquiet, rfl⟩ := hquiet
      -- what the iteration yields
      have hout : ∀ k, out.filter (fun p => decide (key p = k)) = (W.content i src k).toList := by
        intro k
        have := C47_informed_key (W.ex src) (by omega) hev (k := k) (by
          rintro x hx ⟨o, e1, e2, e3⟩
          by_cases hlt : x < i
          · obtain ⟨t', j', r, weak, τ', k1, k2, k3, k4⟩ := ht k x o hlt e1 e2 e3
            exact ⟨t', t, j', r, _, weak, τ', by omega, k2, k3, by omega, hc, by rw [hs]; exact .trans k4 (.po t g1)⟩
          · exfalso
            obtain ⟨-, t', e4⟩ := (W.ex src).ev_inv (by omega) e1
            have := hsrc x (by omega) (by omega) _ _ e4
            cases o with
            | get k' => exact e3 k' rfl
            | insert p => cases this
            | getOrInsert k' f => cases this
            | remove k' => cases this) id (Nat.le_refl _) (by omega)
        rw [this]
        exact congrArg Option.toList (congrFun (hconst id g1 (by omega)) k)
      have hidle : (((W.ex dst).st j1).thr t).run = none := by
        have hq : W.Quiet t i id := q1
        have a1 := hq.idle (m := dst) g1 (by omega) hu.idle
        have a2 : (((W.ex dst).st (id + 1)).thr t).run = none := by
          cases hr : (((W.ex dst).st (id + 1)).thr t).run with
          | none => rfl
          | some c =>
            rcases cstep_run_full ((W.ex dst).step id (by omega)) hr with ⟨e, -⟩ | ⟨c0, _, _, _, _, e, -⟩ | ⟨r, e, -⟩
            · rw [a1] at e; cases e
            · rw [a1] at e; cases e
            · rcases W.sole id dst src (by omega) (by rw [e]; simp) (by rw [hc]; simp) with e' | ⟨_, _, _, e'⟩
              · exact absurd e' hne
              · rw [e] at e'; cases e'
        exact hquiet.idle (m := dst) hle.1 (by omega) (q2.idle (m := dst) (by omega) (by omega) a2)
      -- nothing happens to the new map meanwhile
      have hdst : ∀ n, i ≤ n → n ≤ j1 → W.content n dst = W.content i dst := by
        intro n hn
        induction hn with
        | refl => intro _; rfl
        | @step n hn ih =>
          intro hnj
          rw [← ih (by omega)]
          rcases (W.ex dst).change (n := n) (by omega) with e | ⟨t', w, c', lp', f1, f2, f3, f4, f5, f6, f7, f8, f9⟩
          · exact e
          · have := hu.alone n hn (by omega) t' w n c' f1 f2 f4
            subst this
            have hge : i ≤ lp'.id := by
              by_cases hlt : i ≤ lp'.id
              · exact hlt
              · obtain ⟨c'', k1, -⟩ := CExec.since (E := W.ex dst) (by omega) f2 (τ := i) (by omega) hn
                rw [hu.idle] at k1; cases k1
            by_cases d1 : lp'.id < id
            · exact absurd f7 (q1 _ hge d1 dst _)
            · by_cases d2 : lp'.id = id
              · rw [d2] at f7
                rcases W.sole id dst src (by omega) (by rw [f7]; simp) (by rw [hc]; simp) with e' | ⟨_, _, _, e'⟩
                · exact absurd e' hne
                · rw [f7] at e'; cases e'
              · by_cases d3 : lp'.id < j0 + 1
                · exact absurd f7 (q2 _ (by omega) d3 dst _)
                · exact absurd f7 (hquiet _ (by omega) (by omega) dst _)
      rw [W.inserts h2 ⟨hidle, fun n a b => hu.alone n (by omega) b⟩, hdst j1 (by omega) (Nat.le_refl _)]
      funext k
      rw [hnew k, Option.or_none, lastWith, hout k]
      cases W.content i src k <;> rfl

end

/-- **C66** (C26 on weak memory): `extend`, while nobody else updates the map, though others may read it, and nothing is synchronised: the last element wins. -/
theorem C66_extend_conmap {eqv : O → K} (W : CWorld (ConMap.keyOf (V := V) eqv)) {t i j m : Nat} {l : List (Arc O V)}
    (h : W.Runs t (ConMap.extendElements m l) i j ()) (hu : W.Alone m t i j) (k : K) :
    W.content j m k = (lastWith (fun e => eqv e.key) l k).or (W.content i m k) :=
  congrFun (W.inserts h hu) k

theorem C66_extend_cloneconmap {eqv : O → K} (W : CWorld (CloneConMap.keyOf (V := V) eqv)) {t i j m : Nat} {l : List (O × V)}
    (h : W.Runs t (CloneConMap.extend m l) i j ()) (hu : W.Alone m t i j) (k : K) :
    W.content j m k = (lastWith (fun x => eqv x.1) l k).or (W.content i m k) := by
  rw [CloneConMap.extend, Prog.map_of_insert_pair] at h
  exact congrFun (W.inserts h hu) k

theorem C66_extend_conset {eqv : T → K} (W : CWorld eqv) {t i j m : Nat} {l : List T} (h : W.Runs t (ConSet.extend m l) i j ()) (hu : W.Alone m t i j) (k : K) :
    W.content j m k = (lastWith eqv l k).or (W.content i m k) :=
  congrFun (W.inserts h hu) k

/-- **C66** (C27 on weak memory): the items of a parallel iterator are distributed over sessions, which insert them without synchronising; nobody else updates the map meanwhile. Afterwards every key of the
input is bound to one of the elements of the input for that key, all other keys are as before. -/
theorem C66_par_extend_conmap {eqv : O → K} (W : CWorld (ConMap.keyOf (V := V) eqv)) {i j m : Nat} (hij : i ≤ j) (hj : j ≤ W.len) (parts : List (Nat × List (Arc O V)))
    (hrun : ∀ x ∈ parts, W.Runs x.1 (ConMap.extendElements m x.2) i j ())
    (hidle : ∀ x ∈ parts, (((W.ex m).st i).thr x.1).run = none)
    (halone : ∀ n, i ≤ n → n < j → ∀ t w τ c, (W.ex m).lab n = .tick t w τ → (((W.ex m).st n).thr t).run = some c → c.req.isUpdate = true → ∃ l, (t, l) ∈ parts)
    (k : K) :
    ((∃ x ∈ parts, ∃ e ∈ x.2, eqv e.key = k) → ∃ x ∈ parts, ∃ e ∈ x.2, eqv e.key = k ∧ W.content j m k = some e) ∧
      ((∀ x ∈ parts, ∀ e ∈ x.2, eqv e.key ≠ k) → W.content j m k = W.content i m k) :=
  W.par_inserts hij hj parts hrun hidle halone k

theorem C66_par_extend_cloneconmap {eqv : O → K} (W : CWorld (CloneConMap.keyOf (V := V) eqv)) {i j m : Nat} (hij : i ≤ j) (hj : j ≤ W.len) (parts : List (Nat × List (O × V)))
    (hrun : ∀ x ∈ parts, W.Runs x.1 (CloneConMap.extend m x.2) i j ())
    (hidle : ∀ x ∈ parts, (((W.ex m).st i).thr x.1).run = none)
    (halone : ∀ n, i ≤ n → n < j → ∀ t w τ c, (W.ex m).lab n = .tick t w τ → (((W.ex m).st n).thr t).run = some c → c.req.isUpdate = true → ∃ l, (t, l) ∈ parts)
    (k : K) :
    ((∃ x ∈ parts, ∃ e ∈ x.2, eqv e.1 = k) → ∃ x ∈ parts, ∃ e ∈ x.2, eqv e.1 = k ∧ W.content j m k = some e) ∧
      ((∀ x ∈ parts, ∀ e ∈ x.2, eqv e.1 ≠ k) → W.content j m k = W.content i m k) :=
  W.par_inserts hij hj parts (fun x hx => by have := hrun x hx; rwa [CloneConMap.extend, Prog.map_of_insert_pair] at this) hidle halone k

theorem C66_par_extend_conset {eqv : T → K} (W : CWorld eqv) {i j m : Nat} (hij : i ≤ j) (hj : j ≤ W.len) (parts : List (Nat × List T))
    (hrun : ∀ x ∈ parts, W.Runs x.1 (ConSet.extend m x.2) i j ())
    (hidle : ∀ x ∈ parts, (((W.ex m).st i).thr x.1).run = none)
    (halone : ∀ n, i ≤ n → n < j → ∀ t w τ c, (W.ex m).lab n = .tick t w τ → (((W.ex m).st n).thr t).run = some c → c.req.isUpdate = true → ∃ l, (t, l) ∈ parts)
    (k : K) :
    ((∃ x ∈ parts, ∃ v ∈ x.2, eqv v = k) → ∃ x ∈ parts, ∃ v ∈ x.2, eqv v = k ∧ W.content j m k = some v) ∧
      ((∀ x ∈ parts, ∀ v ∈ x.2, eqv v ≠ k) → W.content j m k = W.content i m k) :=
  W.par_inserts hij hj parts hrun hidle halone k

/-- **C66** (C25 on weak memory): a clone made by one who was told of all that was done to the original, while nobody starts updating it, is exact. (No lock is needed: others may read both maps.) -/
theorem C66_clone_conmap {eqv : O → K} (W : CWorld (ConMap.keyOf (V := V) eqv)) {t i j src dst : Nat} (hne : dst ≠ src)
    (h : W.Runs t (ConMap.clone src dst) i j ()) (hnew : ∀ k, W.content i dst k = none) (hu : W.Alone dst t i j) (ht : ∀ k, W.Told src t i k) (hsrc : W.NotUpdated src i j) :
    W.content j dst = W.content i src ∧ W.content j src = W.content i src :=
  W.clone_told h hnew hu hne ht hsrc

theorem C66_clone_cloneconmap {eqv : O → K} (W : CWorld (CloneConMap.keyOf (V := V) eqv)) {t i j src dst : Nat} (hne : dst ≠ src)
    (h : W.Runs t (CloneConMap.clone src dst) i j ()) (hnew : ∀ k, W.content i dst k = none) (hu : W.Alone dst t i j) (ht : ∀ k, W.Told src t i k) (hsrc : W.NotUpdated src i j) :
    W.content j dst = W.content i src ∧ W.content j src = W.content i src := by
  simp only [CloneConMap.clone, CloneConMap.extend, Prog.map_of_insert_pair] at h
  exact W.clone_told h hnew hu hne ht hsrc

/-! ### Concrete programs -/

/-- Two maps may do this at the same time. -/
def CLabel.fits : CLabel K P → CLabel K P → Bool
  | .sync a b c, .sync a' b' c' => a == a' && b == b' && c == c'
  | .sync _ _ _, _ => false
  | _, .sync _ _ _ => false
  | .idle, _ => true
  | _, .idle => true
  | _, _ => false

theorem CLabel.fits_sole {a b : CLabel K P} (h : a.fits b = true) : (a ≠ .idle → b ≠ .idle → ∃ t t' τ, a = .sync t t' τ) ∧ (∀ t t' τ, a = .sync t t' τ → b = .sync t t' τ) := by
  cases a <;> cases b <;> simp_all [CLabel.fits]

/-- A world of two maps, 0 and 1 (the others are never used). -/
def exWorld (a b c : List (CLabel Nat (Nat × Nat))) (ha : cRunOKb exPairs CState.init a = true) (hb : cRunOKb exPairs CState.init b = true)
    (hc : cRunOKb exPairs CState.init c = true) (hf : [a, b, c].all (fun ls => ls.all (fun l => match l with | .free _ => false | _ => true)) = true)
    (hlen : b.length = a.length ∧ c.length = a.length)
    (hfit : (List.range a.length).all (fun i => [(a, b), (b, a), (a, c), (c, a), (b, c), (c, b), (c, c)].all (fun x => (x.1.getD i .idle).fits (x.2.getD i .idle))) = true) :
    CWorld (CloneConMap.keyOf (V := Nat) (fun k : Nat => k)) :=
  have hgc : ∀ ls, ls ∈ [a, b, c] → ∀ i a, i < ls.length → ls.getD i .idle ≠ .free a := fun ls h i x hi => by
    rw [List.all_eq_true] at hf
    refine no_free (cfg := exPairs) ?_ hi
    have := hf ls h
    rw [List.all_eq_true] at this ⊢
    intro l hl
    have := this l hl
    cases l <;> first | rfl | cases this
  let ex : Nat → CExec exPairs := fun m => match m with
    | 0 => .ofRun exPairs a ha (fun i x hi e => absurd e (hgc a (by simp) i x hi))
    | 1 => .ofRun exPairs b hb (fun i x hi e => absurd e (hgc b (by simp) i x hi))
    | _ + 2 => .ofRun exPairs c hc (fun i x hi e => absurd e (hgc c (by simp) i x hi))
  have hlab : ∀ i m m', i < a.length → m ≠ m' → ((ex m).lab i).fits ((ex m').lab i) = true := by
    intro i m m' hi hne
    rw [List.all_eq_true] at hfit
    have h := hfit i (by simpa using hi)
    rw [List.all_eq_true] at h
    match m, m' with
    | 0, 0 => exact absurd rfl hne
    | 0, 1 => exact h (a, b) (by simp)
    | 0, _ + 2 => exact h (a, c) (by simp)
    | 1, 0 => exact h (b, a) (by simp)
    | 1, 1 => exact absurd rfl hne
    | 1, _ + 2 => exact h (b, c) (by simp)
    | _ + 2, 0 => exact h (c, a) (by simp)
    | _ + 2, 1 => exact h (c, b) (by simp)
    | _ + 2, _ + 2 => exact h (c, c) (by simp)
  { hash := fun _ k => BitVec.ofNat 64 k
    len := a.length
    ex := ex
    same := fun m => match m with
      | 0 => rfl
      | 1 => hlen.1
      | _ + 2 => hlen.2
    sole := fun i m m' hi h1 h2 => by
      by_cases e : m = m'
      · exact .inl e
      · exact .inr ((CLabel.fits_sole (hlab i m m' hi e)).1 h1 h2)
    sync := fun i m m' t t' τ hi h => by
      by_cases e : m = m'
      · subst e; exact h
      · exact (CLabel.fits_sole (hlab i m m' hi e)).2 t t' τ h }

/-- Session `t` is quiet in the run between `i` and `j`. -/
def quietIn (t i j : Nat) (ls : List (CLabel Nat (Nat × Nat))) : Bool :=
  (List.range ls.length).all (fun n => !(decide (i ≤ n) && decide (n < j)) || match ls.getD n .idle with
    | .call u _ => u != t
    | _ => true)

theorem quietIn_spec {t i j : Nat} {ls : List (CLabel Nat (Nat × Nat))} (h : quietIn t i j ls = true) {n : Nat} (h1 : i ≤ n) (h2 : n < j) (r : Req Nat (Nat × Nat)) :
    ls.getD n .idle ≠ .call t r := by
  intro e
  by_cases hn : n < ls.length
  · simp only [quietIn, List.all_eq_true] at h
    have := h n (by simpa using hn)
    rw [e] at this
    simp [h1, h2] at this
  · rw [List.getD_eq_getElem?_getD, List.getElem?_eq_none (by omega)] at e; cases e

theorem exWorld_quiet {a b c : List (CLabel Nat (Nat × Nat))} {ha hb hc hf hlen hfit} {t i j : Nat}
    (h : [a, b, c].all (quietIn t i j) = true) : (exWorld a b c ha hb hc hf hlen hfit).Quiet t i j := by
  rw [List.all_eq_true] at h
  intro n h1 h2 m r
  match m with
  | 0 => exact quietIn_spec (h a (by simp)) h1 h2 r
  | 1 => exact quietIn_spec (h b (by simp)) h1 h2 r
  | _ + 2 => exact quietIn_spec (h c (by simp)) h1 h2 r

/-- Session 0 inserts `(7, 1)`; then session 1, which nobody has told, looks the key up and does not find it; it synchronises with session 0, and does find it. -/
def exTold : CWorld (CloneConMap.keyOf (V := Nat) (fun k : Nat => k)) :=
  exWorld [.pin 0, .pin 1, .call 0 (.op (.insert (7, 1))), .tick 0 false 3, .tick 0 false 4, .call 1 (.op (.get 7)), .tick 1 false 0,
      .sync 1 0 5, .call 1 (.op (.get 7)), .tick 1 false 5]
    [.idle, .idle, .idle, .idle, .idle, .idle, .idle, .sync 1 0 5, .idle, .idle] [.idle, .idle, .idle, .idle, .idle, .idle, .idle, .sync 1 0 5, .idle, .idle]
    (by decide) (by decide) (by decide) (by decide) (by decide) (by decide)

theorem exTold_first : exTold.Runs 1 ((MapCall.get 7 : MapCall Nat Nat Nat).cloneConMap (fun k => k) 0) 5 7 (.opt none) :=
  .call (id := 5) (j := 6) (x := .op (.opt none)) (by decide) (exWorld_quiet (by decide)) rfl (by decide) (by decide) (exWorld_quiet (by decide)) rfl
    (.ret (by decide) (by decide) (exWorld_quiet (by decide)))

theorem exTold_second : exTold.Runs 1 ((MapCall.get 7 : MapCall Nat Nat Nat).cloneConMap (fun k => k) 0) 8 10 (.opt (some (7, 1))) :=
  .call (id := 8) (j := 9) (x := .op (.opt (some (7, 1)))) (by decide) (exWorld_quiet (by decide)) rfl (by decide) (by decide) (exWorld_quiet (by decide)) rfl
    (.ret (by decide) (by decide) (exWorld_quiet (by decide)))

/-- The first lookup glimpses the past: at no instant during the call it could have answered like this. -/
example : ∃ id τ rq, 5 ≤ id ∧ id < 7 ∧ (exTold.ex 0).lab id = .call 1 rq ∧ exTold.Glimpsed 0 id 7 τ 7 ∧ exTold.content τ 0 7 = none := by
  have hc : ∀ τ, 5 ≤ τ → τ < 7 → exTold.content τ 0 7 = some (7, 1) := by
    intro τ h1 h2
    match τ, h1, h2 with
    | 5, _, _ => decide
    | 6, _, _ => decide
  rcases C66_cloneconmap exTold (k := 7) rfl exTold_first with ⟨τ, h1, h2, h3⟩ | ⟨-, id, τ, rq, h1, h2, h3, h4, h5⟩
  · have := h3.1
    rw [hc τ h1 h2] at this
    cases this
  · refine ⟨id, τ, rq, h1, h2, h3, h4, ?_⟩
    have := h5.1
    injection this with this
    exact this.symm

/-- By instant 8, session 1 has been told. -/
theorem exTold_told : exTold.Told 0 1 8 7 := by
  intro x o hx hev _ hng
  have hgo : ∀ x, x < 8 → x ≠ 2 → (exTold.ex 0).ev x = some (.inv x (.op o)) → False := by
    intro x hx hne hev
    match x, hx with
    | 0, _ => cases hev
    | 1, _ => cases hev
    | 2, _ => exact hne rfl
    | 3, _ => cases hev
    | 4, _ => cases hev
    | 5, _ => exact hng 7 (by injection hev with e; injection e with _ e; injection e with e; exact e.symm)
    | 6, _ => cases hev
    | 7, _ => cases hev
  by_cases e : x = 2
  · subst e
    exact ⟨0, 4, .op (.opt none), false, 4, by decide, rfl, rfl, .sync (j := 7) (τ := 5) (by decide) rfl⟩
  · exact absurd (hgo x hx e hev) (by simp)

/-- The second lookup is as on sequentially consistent memory. -/
example : ∃ τ M', 8 ≤ τ ∧ τ < 10 ∧ (MapCall.get 7 : MapCall Nat Nat Nat).Spec (fun k => k) (fun _ => Prod.mk) (exTold.content τ 0) (.opt (some (7, 1))) M' ∧
    (M' = exTold.content (τ + 1) 0 ∨ M' = exTold.content τ 0) :=
  C66_cloneconmap_told exTold rfl exTold_second exTold_told

/-- Sessions 0 and 1 insert for the same key, without knowing of each other; session 1 is told nothing of what session 0 did (it overwrites what it did not see when it was called). -/
def exParWeak : CWorld (CloneConMap.keyOf (V := Nat) (fun k : Nat => k)) :=
  exWorld [.pin 0, .pin 1, .call 0 (.op (.insert (7, 1))), .call 1 (.op (.insert (7, 2))), .tick 0 false 4, .tick 0 false 5, .tick 1 false 0, .tick 1 false 7, .tick 1 false 8,
      .tick 1 false 9] (List.replicate 10 .idle) (List.replicate 10 .idle) (by decide) (by decide) (by decide) (by decide) (by decide) (by decide)

/-- C66, extending in parallel. -/
example : ∃ x ∈ [(0, [(7, 1)]), (1, [(7, 2)])], ∃ e ∈ x.2, e.1 = 7 ∧ exParWeak.content 10 0 7 = some e := by
  refine (C66_par_extend_cloneconmap exParWeak (i := 0) (j := 10) (m := 0) (by decide) (by decide) [(0, [(7, 1)]), (1, [(7, 2)])] ?_ ?_ ?_ 7).1
    ⟨(0, [(7, 1)]), by simp, (7, 1), by simp, rfl⟩
  · intro x hx
    rcases List.mem_cons.mp hx with rfl | hx
    · exact .call (id := 2) (j := 5) (x := .op (.opt none)) (by decide) (exWorld_quiet (by decide)) rfl (by decide) (by decide) (exWorld_quiet (by decide)) rfl
        (.ret (by decide) (by decide) (exWorld_quiet (by decide)))
    · rcases List.mem_cons.mp hx with rfl | hx
      · exact .call (id := 3) (j := 9) (x := .op (.opt (some (7, 1)))) (by decide) (exWorld_quiet (by decide)) rfl (by decide) (by decide) (exWorld_quiet (by decide)) rfl
          (.ret (by decide) (by decide) (exWorld_quiet (by decide)))
      · cases hx
  · intro x hx
    rcases List.mem_cons.mp hx with rfl | hx
    · rfl
    · rcases List.mem_cons.mp hx with rfl | hx
      · rfl
      · cases hx
  · intro n _ hn t w τ c hl _ _
    have ht : t < 2 := by
      match n, hn with
      | 0, _ => cases hl
      | 1, _ => cases hl
      | 2, _ => cases hl
      | 3, _ => cases hl
      | 4, _ => cases hl; decide
      | 5, _ => cases hl; decide
      | 6, _ => cases hl; decide
      | 7, _ => cases hl; decide
      | 8, _ => cases hl; decide
      | 9, _ => cases hl; decide
    match t, ht with
    | 0, _ => exact ⟨[(7, 1)], by simp⟩
    | 1, _ => exact ⟨[(7, 2)], by simp⟩

/-- Session 0 inserts `(7, 1)` into map 0; session 1 synchronises and clones the map to map 1, iterating over it as it was at instant 5. -/
def exCloneWeak : CWorld (CloneConMap.keyOf (V := Nat) (fun k : Nat => k)) :=
  exWorld [.pin 0, .pin 1, .call 0 (.op (.insert (7, 1))), .tick 0 false 3, .tick 0 false 4, .sync 1 0 5, .call 1 .iter, .tick 1 false 5, .tick 1 false 8, .tick 1 false 9, .tick 1 false 10,
      .idle, .idle, .idle, .idle]
    [.idle, .idle, .idle, .idle, .idle, .sync 1 0 5, .idle, .idle, .idle, .idle, .idle, .pin 1, .call 1 (.op (.insert (7, 1))), .tick 1 false 13, .tick 1 false 14]
    [.idle, .idle, .idle, .idle, .idle, .sync 1 0 5, .idle, .idle, .idle, .idle, .idle, .idle, .idle, .idle, .idle]
    (by decide) (by decide) (by decide) (by decide) (by decide) (by decide)

/-- C66, a clone. -/
example : exCloneWeak.content 15 1 = exCloneWeak.content 6 0 ∧ exCloneWeak.content 15 0 = exCloneWeak.content 6 0 := by
  refine C66_clone_cloneconmap exCloneWeak (t := 1) (i := 6) (j := 15) (src := 0) (dst := 1) (by decide) ?_ ?_ ?_ ?_ ?_
  · refine .call (id := 6) (j := 10) (x := .list [(7, 1)]) (by decide) (exWorld_quiet (by decide)) rfl (by decide) (by decide) (exWorld_quiet (by decide)) rfl ?_
    exact .call (id := 12) (j := 14) (x := .op (.opt none)) (by decide) (exWorld_quiet (by decide)) rfl (by decide) (by decide) (exWorld_quiet (by decide)) rfl
      (.ret (by decide) (by decide) (exWorld_quiet (by decide)))
  · intro k
    show (exCloneWeak.ex 1).content 6 k = _
    rfl
  · refine ⟨rfl, ?_⟩
    intro n h1 hn t w τ c hl _ _
    match n, h1, hn with
    | 6, _, _ => cases hl
    | 7, _, _ => cases hl
    | 8, _, _ => cases hl
    | 9, _, _ => cases hl
    | 10, _, _ => cases hl
    | 11, _, _ => cases hl
    | 12, _, _ => cases hl
    | 13, _, _ => cases hl; rfl
    | 14, _, _ => cases hl; rfl
  · intro k x o hx hev _ hng
    match x, hx with
    | 0, _ => cases hev
    | 1, _ => cases hev
    | 2, _ => exact ⟨0, 4, .op (.opt none), false, 4, by decide, rfl, rfl, .sync (j := 5) (τ := 5) (by decide) rfl⟩
    | 3, _ => cases hev
    | 4, _ => cases hev
    | 5, _ => cases hev
  · intro n h1 hn t r hl
    match n, h1, hn with
    | 6, _, _ => cases hl; rfl
    | 7, _, _ => cases hl
    | 8, _, _ => cases hl
    | 9, _, _ => cases hl
    | 10, _, _ => cases hl
    | 11, _, _ => cases hl
    | 12, _, _ => cases hl
    | 13, _, _ => cases hl
    | 14, _, _ => cases hl

end Contrie
