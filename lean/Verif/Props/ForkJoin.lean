import Verif.Props.Synchronised
/-
C47: on weak memory, one who was told about all that was done sees all of it. Iterations, `is_empty` and lookups after a join; what a lookup or an iteration finds was put
there by somebody.
-/
set_option linter.unusedSectionVars false
namespace Contrie
open scoped List
variable {K P : Type} [DecidableEq K] {cfg : Config K P} (E : CExec cfg)

/-- Call `x` is one that may change key `k`. -/
def CExec.Modifies (k : K) (x : Nat) : Prop :=
  ∃ o : Op K P, E.ev x = some (.inv x (.op o)) ∧ o.key cfg.key = k ∧ ∀ k', o ≠ .get k'

/-- The invoker of call `id`, which returned in step `j`, knew (by synchronisation) of everything that may have changed key `k` and was invoked before
step `j`. -/
def CExec.Informed (id j : Nat) (k : K) : Prop := ∀ x, x < j → E.Modifies k x → E.Hb x id

/-- Where an update comes from. -/
theorem CExec.upd_modifies {i : Nat} {lp : LP K P} (hi : i < E.len) (hw : E.W i = some lp) (hg : ∀ k', lp.op ≠ .get k') :
    E.Modifies (lp.op.key cfg.key) lp.id ∧ lp.id < i := by
  obtain ⟨t, weak, c, h1, h2, h3, h4, h5, h6, h7, h8⟩ := E.W_ok hi hw
  exact ⟨⟨lp.op, E.ev_call (by omega) h6, rfl, hg⟩, h5⟩

theorem CExec.informed_before {id j i : Nat} {k : K} (hj : j ≤ E.len) (hI : E.Informed id j k) {lp : LP K P} (hi : i < j) (hw : E.W i = some lp)
    (hk : lp.op.key cfg.key = k) (hg : ∀ k', lp.op ≠ .get k') : E.Hb lp.id id ∧ i < id := by
  obtain ⟨hm, hlt⟩ := E.upd_modifies (by omega) hw hg
  have hb := hI lp.id (by omega) (hk ▸ hm)
  refine ⟨hb, ?_⟩
  obtain ⟨j', r', a1, a2, a3, a4⟩ := hb.ret E
  have := E.W_res (by omega) hw a1 a2
  omega

/-- The key does not change during the call. -/
theorem CExec.informed_const {id j a b : Nat} {k : K} (hj : j ≤ E.len) (hI : E.Informed id j k) (h1 : id ≤ a) (h2 : a ≤ b) (h3 : b ≤ j) :
    E.A a k = E.A b k := by
  refine E.A_const h2 (by omega) ?_
  intro i lp h4 h5 hw hk
  apply Classical.byContradiction
  intro hn
  have := (E.informed_before hj hI (i := i) (by omega) hw hk (fun k' e => hn ⟨k', e⟩)).2
  omega

/-- One who was informed sees the present. -/
theorem CExec.informed_saw {t id j σ : Nat} {k : K} {v : Option P} {req : Req K P} {r : Res P} (hj : j < E.len) (hl : E.lab id = .call t req)
    (hlt : id < j) (hr : E.ev j = some (.res id r)) (hs : E.Saw t id (j + 1) k v σ) (hI : E.Informed id j k) {i : Nat} (h1 : id ≤ i) (h2 : i ≤ j) :
    E.content i k = v := by
  rw [← E.A_content, ← hs.val]
  rcases Nat.le_total i σ with hle | hle
  · have hσ := hs.lt
    exact E.informed_const (Nat.le_of_lt hj) hI h1 hle (by omega)
  · symm
    refine E.A_const hle (by omega) ?_
    intro i' lp h4 h5 hw hk
    apply Classical.byContradiction
    intro hn
    have hb := (E.informed_before (Nat.le_of_lt hj) hI (i := i') (by omega) hw hk (fun k' e => hn ⟨k', e⟩)).1
    have := CExec.SawIt.after (n := j + 1) (by omega) (by omega) hw hk ⟨t, j, _, _, hl, hlt, by omega, hr, hs⟩ hb
    omega

/-- What an iteration yields, key by key. -/
theorem CExec.iter_ret {id j : Nat} {out : List P} (hj : j < E.len) (hr : E.ev j = some (.res id (.list out))) :
    ∃ t, E.lab id = .call t .iter ∧ id < j ∧ ∀ k, ∃ v σ, E.Saw t id (j + 1) k v σ ∧ ofKey cfg k out = v.toList := by
  obtain ⟨t, weak, τ, c, g1, g2, g3, g4, g5, g6, g7⟩ := E.ret hj hr
  subst g3
  cases hreq : c.req with
  | op o => simp only [CExec.OutOK, hreq] at g7; obtain ⟨_, h, -⟩ := g7; cases h
  | isEmpty => simp only [CExec.OutOK, hreq] at g7; obtain ⟨_, h, -⟩ := g7; cases h
  | iter =>
    simp only [CExec.OutOK, hreq] at g7
    obtain ⟨out', ho, h⟩ := g7
    injection ho with ho
    subst ho
    rw [hreq] at g5
    exact ⟨t, g5, g4, h⟩

theorem nodup_of_ofKey {l : List P} (h : ∀ k, (ofKey cfg k l).length ≤ 1) : (l.map cfg.key).Nodup := by
  induction l with
  | nil => exact List.nodup_nil
  | cons x l ih =>
    rw [List.map_cons, List.nodup_cons]
    refine ⟨?_, ih (fun k => ?_)⟩
    · intro hx
      obtain ⟨y, hy, e⟩ := List.mem_map.1 hx
      have := h (cfg.key x)
      have hl : 0 < (ofKey cfg (cfg.key x) l).length := List.length_pos_of_mem (a := y) (by simp [ofKey, hy, e])
      simp only [ofKey, List.filter_cons, decide_true, if_true, List.length_cons] at this hl
      omega
    · refine Nat.le_trans ?_ (h k)
      simp only [ofKey]
      exact ((List.sublist_cons_self x l).filter _).length_le

/-- **C47** (C11 on weak memory). An iteration yields no key twice. -/
theorem C47_no_key_twice {id j : Nat} {out : List P} (hj : j < E.len) (hr : E.ev j = some (.res id (.list out))) : (out.map cfg.key).Nodup := by
  obtain ⟨t, -, -, h⟩ := E.iter_ret hj hr
  refine nodup_of_ofKey (fun k => ?_)
  obtain ⟨v, σ, -, e⟩ := h k
  rw [e]
  cases v <;> simp

/-- **C47** (C13 on weak memory). What an iteration yields was in the map at some instant before it ended, not necessarily during the iteration. -/
theorem C47_yielded_was_present {id j : Nat} {out : List P} (hj : j < E.len) (hr : E.ev j = some (.res id (.list out))) {p : P} (hp : p ∈ out) :
    ∃ σ, σ ≤ j ∧ E.content σ (cfg.key p) = some p := by
  obtain ⟨t, -, -, h⟩ := E.iter_ret hj hr
  obtain ⟨v, σ, hs, e⟩ := h (cfg.key p)
  have hm : p ∈ ofKey cfg (cfg.key p) out := by simp [ofKey, hp]
  rw [e] at hm
  have hv : v = some p := by simpa using hm
  have := hs.lt
  refine ⟨σ, by omega, ?_⟩
  rw [← E.A_content, hs.val, hv]

/-- **C47** (C12 on weak memory). Of a key that only calls have dealt with that happen before the iteration, the iteration yields exactly what the map contains. -/
theorem C47_informed_key {id j : Nat} {out : List P} (hj : j < E.len) (hr : E.ev j = some (.res id (.list out))) {k : K} (hI : E.Informed id j k) :
    ∀ i, id ≤ i → i ≤ j → out.filter (fun p => decide (cfg.key p = k)) = (E.content i k).toList := by
  intro i h1 h2
  obtain ⟨t, hl, hlt, h⟩ := E.iter_ret hj hr
  obtain ⟨v, σ, hs, e⟩ := h k
  rw [E.informed_saw hj hl hlt hr hs hI h1 h2]
  exact e

/-- **C47** (C14 on weak memory). If all that may have changed the map happens before the iteration, it yields exactly the content of the map, each element
once. -/
theorem C47_informed_iteration {id j : Nat} {out : List P} (hj : j < E.len) (hr : E.ev j = some (.res id (.list out)))
    (hI : ∀ k, E.Informed id j k) : (out.map cfg.key).Nodup ∧ ∀ i, id ≤ i → i ≤ j → ∀ p, p ∈ out ↔ E.content i (cfg.key p) = some p := by
  refine ⟨C47_no_key_twice E hj hr, fun i h1 h2 p => ?_⟩
  have h := C47_informed_key E hj hr (hI (cfg.key p)) i h1 h2
  have : p ∈ out ↔ p ∈ out.filter (fun q => decide (cfg.key q = cfg.key p)) := by simp
  rw [this, h]
  simp

/-- **C47** (C15 on weak memory). If `is_empty` returns `true`, no key is bound that its invoker was informed of. -/
theorem C47_informed_is_empty {id j : Nat} (hj : j < E.len) (hr : E.ev j = some (.res id (.bool true))) {k : K} (hI : E.Informed id j k) :
    ∀ i, id ≤ i → i ≤ j → E.content i k = none := by
  intro i h1 h2
  obtain ⟨t, weak, τ, c, g1, g2, g3, g4, g5, g6, g7⟩ := E.ret hj hr
  subst g3
  cases hreq : c.req with
  | op o => simp only [CExec.OutOK, hreq] at g7; obtain ⟨_, h, -⟩ := g7; cases h
  | iter => simp only [CExec.OutOK, hreq] at g7; obtain ⟨_, h, -⟩ := g7; cases h
  | isEmpty =>
    simp only [CExec.OutOK, hreq] at g7
    obtain ⟨b, hb, h⟩ := g7
    injection hb with hb
    obtain ⟨σ, -, hs⟩ := h hb.symm
    exact E.informed_saw hj g5 g4 hr (hs k) hI h1 h2

/-! ### Nothing comes from nowhere -/

/-- The call hands the element over. -/
def Req.Gives : Req K P → P → Prop
  | .op (.insert p), q => p = q
  | .op (.getOrInsert k f), q => f k = q
  | _, _ => False

theorem apply_gives {key : P → K} {B : AMap K P} {o : Op K P} {k : K} {p : P} (h : (B.apply key o).1 k = some p) :
    B k = some p ∨ o.key key = k ∧ (Req.op o).Gives p := by
  by_cases hk : o.key key = k
  · cases o with
    | get k' => exact Or.inl h
    | insert q =>
      refine Or.inr ⟨hk, ?_⟩
      have hk' : k = key q := hk.symm
      subst hk'
      simpa [AMap.apply, AMap.set, Req.Gives] using h
    | getOrInsert k' f =>
      have hk' : k = k' := hk.symm
      subst hk'
      simp only [AMap.apply] at h
      split at h
      · exact Or.inl h
      · refine Or.inr ⟨rfl, ?_⟩
        simpa [AMap.set, Req.Gives] using h
    | remove k' =>
      have hk' : k = k' := hk.symm
      subst hk'
      simp [AMap.apply, AMap.set] at h
  · rw [apply_elsewhere hk] at h
    exact Or.inl h

/-- **C47.** Whatever is in the map was handed over under this key by a call invoked before. -/
theorem C47_content_given {n : Nat} (hn : n ≤ E.len) {k : K} {p : P} (h : E.content n k = some p) :
    ∃ x o, x < n ∧ E.ev x = some (.inv x (.op o)) ∧ o.key cfg.key = k ∧ (Req.op o).Gives p := by
  rw [← E.A_content] at h
  induction n with
  | zero => rw [E.A_zero] at h; cases h
  | succ n ih =>
    cases hw : E.W n with
    | none =>
      rw [E.A_none hn (Nat.lt_succ_self n) hw] at h
      obtain ⟨x, o, h1, h2⟩ := ih (by omega) h
      exact ⟨x, o, by omega, h2⟩
    | some lp =>
      have h1 := congrArg Prod.fst (E.A_some hn (Nat.lt_succ_self n) hw)
      simp only at h1
      rw [← h1] at h
      rcases apply_gives h with h | ⟨h2, h3⟩
      · obtain ⟨x, o, h1, h2⟩ := ih (by omega) h
        exact ⟨x, o, by omega, h2⟩
      · obtain ⟨t, weak, c, -, -, -, -, h5, h6, -⟩ := E.W_ok (by omega) hw
        exact ⟨lp.id, lp.op, by omega, E.ev_call (by omega) h6, h2, h3⟩

/-- **C47.** Nothing comes from nowhere: on weak memory, too, what `get` finds was handed over, under the key asked for, by a call invoked before. -/
theorem C47_found_given {id j : Nat} {k : K} {p : P} (hj : j < E.len) (hc : E.ev id = some (.inv id (.op (.get k))))
    (hr : E.ev j = some (.res id (.op (.opt (some p))))) :
    ∃ x o, x < j ∧ E.ev x = some (.inv x (.op o)) ∧ o.key cfg.key = k ∧ (Req.op o).Gives p := by
  obtain ⟨t, weak, τ, c, g1, g2, g3, g4, g5, g6, g7⟩ := E.ret hj hr
  have hreq : c.req = .op (.get k) := by
    have := E.ev_call (by omega) g5
    rw [hc] at this
    simp only [Option.some.injEq, Event.inv.injEq, true_and] at this
    exact this.symm
  simp only [CExec.OutOK, hreq] at g7
  obtain ⟨ret, e, h5, -⟩ := g7
  injection e with e
  subst e
  have aux : ∀ i, i ≤ j → E.A i k = some p → ∃ x o, x < j ∧ E.ev x = some (.inv x (.op o)) ∧ o.key cfg.key = k ∧ (Req.op o).Gives p := by
    intro i hi h
    rw [E.A_content] at h
    obtain ⟨x, o, h1, h2⟩ := C47_content_given E (by omega) h
    exact ⟨x, o, by omega, h2⟩
  rcases h5 with ⟨i', a1, a2⟩ | ⟨a1, a2, v, σ, a3, a4⟩
  · obtain ⟨t', weak', c', h1, h2, h3, h4, h5, h6, h7, h8⟩ := E.W_ok (by omega) a2
    simp only [AMap.apply, Prod.mk.injEq] at h7
    exact aux i' a1 (by have := h7.2; simpa using this)
  · have h1 := a4 (fun _ => v) rfl
    simp only [AMap.apply, Prod.mk.injEq] at h1
    have h2 : v = some p := by simpa using h1.2
    have := a3.lt
    exact aux σ (by omega) (by rw [← h2]; exact a3.val)

/-- **C47.** So was what an iteration yields. -/
theorem C47_yielded_given {id j : Nat} {out : List P} (hj : j < E.len) (hr : E.ev j = some (.res id (.list out))) {p : P} (hp : p ∈ out) :
    ∃ x o, x < j ∧ E.ev x = some (.inv x (.op o)) ∧ o.key cfg.key = cfg.key p ∧ (Req.op o).Gives p := by
  obtain ⟨σ, h1, h2⟩ := C47_yielded_was_present E hj hr hp
  obtain ⟨x, o, h3, h4⟩ := C47_content_given E (by omega) h2
  exact ⟨x, o, by omega, h4⟩

/-! ### Fork and join -/

/-- Call `x` inserts the element `p`. -/
def CExec.Inserts (x : Nat) (p : P) : Prop := E.ev x = some (.inv x (.op (.insert p)))

/-- A completed insertion took effect. -/
theorem CExec.insert_effect {x j : Nat} {p : P} {r : Res P} (hi : E.Inserts x p) (hj : j < E.len) (hr : E.ev j = some (.res x r)) :
    ∃ i lp, i ≤ j ∧ x < i ∧ E.W i = some lp ∧ lp.id = x ∧ lp.op = .insert p := by
  obtain ⟨t, weak, τ, c, g1, g2, g3, g4, g5, g6, g7⟩ := E.ret hj hr
  have hreq : c.req = .op (.insert p) := by
    have := E.ev_call (by omega) g5
    rw [show E.ev x = _ from hi] at this
    simp only [Option.some.injEq, Event.inv.injEq, true_and] at this
    exact this.symm
  simp only [CExec.OutOK, hreq] at g7
  obtain ⟨ret, -, h5, -⟩ := g7
  rcases h5 with ⟨i', a1, a2⟩ | ⟨a1, a2, -⟩
  · obtain ⟨t', weak', c', h1, h2, h3, h4, h5, h6, h7, h8⟩ := E.W_ok (by omega) a2
    have h5' : c.inv < i' := h5
    exact ⟨i', _, a1, by omega, a2, g3, rfl⟩
  · exact absurd rfl (a2 p)

/-- A key that was inserted and is not removed stays bound. -/
theorem CExec.stays_bound {k : K} {a b : Nat} (hab : a ≤ b) (hb : b ≤ E.len) (h0 : E.A a k ≠ none)
    (h : ∀ x o, x < b → E.ev x = some (.inv x (.op o)) → o ≠ .remove k) : E.A b k ≠ none := by
  induction hab with
  | refl => exact h0
  | @step b hab ih =>
    have := ih (by omega) (fun x o h1 => h x o (by omega))
    cases hw : E.W b with
    | none => rw [E.A_none hb (Nat.lt_succ_self b) hw]; exact this
    | some lp =>
      have h1 := congrArg Prod.fst (E.A_some hb (Nat.lt_succ_self b) hw)
      simp only at h1
      rw [← h1]
      obtain ⟨t, weak, c, -, -, -, -, h5, h6, -⟩ := E.W_ok (by omega) hw
      have hno := h lp.id lp.op (by omega) (E.ev_call (by omega) h6)
      cases ho : lp.op with
      | get k' => exact this
      | insert p =>
        simp only [AMap.apply, AMap.set]
        split
        · simp
        · exact this
      | getOrInsert k' f =>
        simp only [AMap.apply]
        split
        · exact this
        · simp only [AMap.set]
          split
          · simp
          · exact this
      | remove k' =>
        simp only [AMap.apply, AMap.set]
        split
        · next e => subst e; exact absurd ho hno
        · exact this

/-- **C47.** Fork and join (as in `par_extend` and `from_par_iter`), on weak memory: sessions insert elements, without knowing of each other; the insertions all happen
before an iteration (the iterating session has joined them), and nobody does anything else to the map. Then the iteration yields one element for every key that was
inserted, and this is one of those inserted under that key -- the one inserted last, if there is one the other insertions happen before. -/
theorem C47_fork_join {id j : Nat} {out : List P} (hj : j < E.len) (hr : E.ev j = some (.res id (.list out)))
    (hins : ∀ x o, x < j → E.ev x = some (.inv x (.op o)) → (∀ k, o ≠ .get k) → (∃ p, o = .insert p) ∧ E.Hb x id) :
    (out.map cfg.key).Nodup ∧ (∀ p ∈ out, ∃ x, x < id ∧ E.Inserts x p) ∧
      (∀ x p, x < j → E.Inserts x p → ∃ q ∈ out, cfg.key q = cfg.key p) ∧
      (∀ x p, x < j → E.Inserts x p → (∀ y q, y < j → E.Inserts y q → cfg.key q = cfg.key p → y ≠ x → E.Hb y x) → p ∈ out) := by
  have hI : ∀ k, E.Informed id j k := by
    rintro k x hx ⟨o, h1, h2, h3⟩
    exact (hins x o hx h1 h3).2
  obtain ⟨hnd, hex⟩ := C47_informed_iteration E hj hr hI
  obtain ⟨t, hl, hlt, -⟩ := E.iter_ret hj hr
  have effect : ∀ x p, x < j → E.Inserts x p → ∃ i lp, i < id ∧ E.W i = some lp ∧ lp.id = x ∧ lp.op = .insert p := by
    intro x p hx hi
    have hb := (hins x _ hx hi (by simp)).2
    obtain ⟨j', r', a1, a2, a3, a4⟩ := hb.ret E
    obtain ⟨i, lp, b1, b2, b3⟩ := E.insert_effect hi a1 a2
    exact ⟨i, lp, by omega, b3⟩
  refine ⟨hnd, ?_, ?_, ?_⟩
  · intro p hp
    have h := (hex id (Nat.le_refl _) (by omega) p).1 hp
    obtain ⟨x, o, h1, h2, h3, h4⟩ := C47_content_given E (by omega) h
    obtain ⟨q, rfl⟩ := (hins x o (by omega) h2 (by rintro k rfl; exact h4)).1
    have : q = p := h4
    subst this
    exact ⟨x, h1, h2⟩
  · intro x p hx hi
    obtain ⟨i, lp, h1, h2, h3, h4⟩ := effect x p hx hi
    have hA : E.A (i + 1) (cfg.key p) = some p := by
      have := congrArg Prod.fst (E.A_some (n := id) (by omega) h1 h2)
      simp only at this
      rw [← this, h4]; simp [AMap.apply, AMap.set]
    have hb := E.stays_bound (k := cfg.key p) (a := i + 1) (b := id) (by omega) (by omega) (by rw [hA]; simp) (by
      intro y o hy ho e
      subst e
      obtain ⟨q, hq⟩ := (hins y _ (by omega) ho (by simp)).1
      cases hq)
    rw [E.A_content] at hb
    cases hc : E.content id (cfg.key p) with
    | none => exact absurd hc hb
    | some q =>
      obtain ⟨y, o, hy, h6, h7, h8⟩ := C47_content_given E (by omega) hc
      obtain ⟨q', rfl⟩ := (hins y o (by omega) h6 (by rintro k rfl; exact h8)).1
      have : q' = q := h8
      subst this
      have hk : cfg.key q' = cfg.key p := h7
      exact ⟨q', (hex id (Nat.le_refl _) (by omega) q').2 (by rw [hk]; exact hc), hk⟩
  · intro x p hx hi hlast
    obtain ⟨i, lp, h1, h2, h3, h4⟩ := effect x p hx hi
    have hA : E.A (i + 1) (cfg.key p) = some p := by
      have := congrArg Prod.fst (E.A_some (n := id) (by omega) h1 h2)
      simp only at this
      rw [← this, h4]; simp [AMap.apply, AMap.set]
    refine (hex id (Nat.le_refl _) (by omega) p).2 ?_
    rw [← E.A_content, ← hA]
    symm
    refine E.A_const (by omega) (by omega) ?_
    intro i' lp' h5 h6 hw hk
    apply Classical.byContradiction
    intro hn
    have hg : ∀ k', lp'.op ≠ .get k' := fun k' e => hn ⟨k', e⟩
    obtain ⟨t', weak', c', -, -, -, -, b1, b2, -⟩ := E.W_ok (by omega) hw
    have hev := E.ev_call (by omega) b2
    obtain ⟨q, hq⟩ := (hins lp'.id lp'.op (by omega) hev hg).1
    rw [hq] at hev hk
    by_cases hxy : lp'.id = x
    · have := E.W_unique (i := i) (j := i') (by omega) (by omega) h2 hw (by rw [h3, hxy])
      omega
    · have hb := hlast lp'.id q (by omega) hev hk hxy
      obtain ⟨j', r', a1, a2, a3, a4⟩ := hb.ret E
      have h7 := E.W_res (by omega) hw a1 a2
      obtain ⟨t'', weak'', c'', -, -, -, -, b3, -⟩ := E.W_ok (by omega) h2
      omega

/-! ### Example -/

/-- Sessions 0 and 1 insert (7, 1), (7, 2) and (2, 3), without knowing of each other (the first load of session 1 is stale, so its first CAS fails); session 2 joins
them and iterates. -/
def exForkRun : List (CLabel Nat (Nat × Nat)) :=
  [.pin 0, .pin 1, .pin 2, .call 0 (.op (.insert (7, 1))), .tick 0 false 4, .tick 0 false 5,
   .call 1 (.op (.insert (7, 2))), .tick 1 false 4, .tick 1 false 8, .tick 1 false 9, .tick 1 false 10,
   .call 1 (.op (.insert (2, 3))), .tick 1 false 12, .tick 1 false 13, .tick 1 false 14, .tick 1 false 15, .tick 1 false 16,
   .sync 2 0 17, .sync 2 1 18, .call 2 .iter] ++ (List.range 37).map (fun i => .tick 2 false (20 + i))

set_option maxRecDepth 20000 in
def exFork : CExec exCfg :=
  .ofRun exCfg exForkRun (by decide) (fun i a hi e => absurd e (no_free (cfg := exCfg) (by decide) hi))

set_option maxRecDepth 20000 in
theorem exFork_out : exFork.ev 56 = some (.res 19 (.list [(2, 3), (7, 2)])) := by rfl

set_option maxRecDepth 20000 in
theorem exFork_ins (x : Nat) (o : Op Nat (Nat × Nat)) (hx : x < 56) (hev : exFork.ev x = some (.inv x (.op o))) :
    (∃ p, o = .insert p) ∧ exFork.Hb x 19 := by
  obtain ⟨-, t, hl⟩ := exFork.ev_inv (show x < 57 by omega) hev
  have hc : ∀ x < 56, (match exFork.lab x with | .call _ (.op _) => x == 3 || x == 6 || x == 11 | _ => true) = true := by decide
  have := hc x hx
  simp only [hl, Bool.or_eq_true, beq_iff_eq, or_assoc] at this
  have hb0 : HB exFork.lab exFork.len (0, 6) (2, 19) :=
    .trans (.po 0 (j := 17) (by decide)) (.trans (.sync (t := 2) (t' := 0) (τ := 17) (j := 17) (by decide) rfl) (.po 2 (by decide)))
  have hb1 : ∀ i, i ≤ 18 → HB exFork.lab exFork.len (1, i) (2, 19) := fun i hi =>
    .trans (.po 1 hi) (.sync (t := 2) (t' := 1) (τ := 18) (j := 18) (by decide) rfl)
  rcases this with rfl | rfl | rfl
  · exact ⟨⟨(7, 1), by cases hev; rfl⟩, 0, 2, 5, _, .iter, false, 5, by decide, rfl, rfl, by decide, rfl, hb0⟩
  · exact ⟨⟨(7, 2), by cases hev; rfl⟩, 1, 2, 10, _, .iter, false, 10, by decide, rfl, rfl, by decide, rfl, hb1 11 (by decide)⟩
  · exact ⟨⟨(2, 3), by cases hev; rfl⟩, 1, 2, 16, _, .iter, false, 16, by decide, rfl, rfl, by decide, rfl, hb1 17 (by decide)⟩

set_option maxRecDepth 20000 in
/-- Non-vacuity of `C47_fork_join`. -/
example : ∃ q ∈ [(2, 3), (7, 2)], exCfg.key q = 7 :=
  (C47_fork_join exFork (by decide) exFork_out (fun x o hx hev _ => exFork_ins x o hx hev)).2.2.1 3 (7, 1) (by decide) rfl

end Contrie
