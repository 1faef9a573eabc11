import Verif.Props.Wrappers
/-
C25 (clone), C26 (extend, from_iter: last one wins), C27 (parallel extend).
-/
set_option linter.unusedSectionVars false
namespace Contrie
variable {K P O V T α β : Type} [DecidableEq K]

/-! ### C26 -/

/-- Common part: a program that inserts one element after the other. -/
theorem World.inserts {key : P → K} (W : World key) {t i j m : Nat} {l : List P}
    (h : W.Runs t (Prog.forEach (fun p => Prog.opt m (.insert p) (fun r => r)) l) i j ()) (hu : W.Undisturbed m t i j) (k : K) :
    W.content j m k = (lastWith key l k).or (W.content i m k) := by
  obtain ⟨A, A', hm, e1, e2, -⟩ := h.means_on (m := m) (Prog.On.forEach (fun _ => Prog.On.opt) l) hu
    (fun ha => absurd ha (Prog.AsksEmpty.forEach (fun _ => Prog.AsksEmpty.opt)))
  rw [← e2, ← e1, hm.of_inserts, upd_same]

/-- **C26** for `ConMap` and a sequence of elements (`Extend<Arc<Element<K, V>>>`), also if readers use the map meanwhile. -/
theorem C26_conmap_elements {eqv : O → K} (W : World (ConMap.keyOf (V := V) eqv)) {t i j m : Nat} {l : List (Arc O V)}
    (h : W.Runs t (ConMap.extendElements m l) i j ()) (hu : W.Undisturbed m t i j) (k : K) :
    W.content j m k = (lastWith (fun e => eqv e.key) l k).or (W.content i m k) :=
  W.inserts h hu k

/-- **C26** for `ConMap` and a sequence of keys and values (`Extend<(K, V)>`). -/
theorem C26_conmap {eqv : O → K} (W : World (ConMap.keyOf (V := V) eqv)) {t i j m : Nat} {l : List (Nat × O × V)}
    (h : W.Runs t (ConMap.extend m l) i j ()) (hu : W.Undisturbed m t i j) (k : K) :
    W.content j m k = ((lastWith (fun x => eqv x.2.1) l k).map (fun x => ⟨x.1, x.2.1, x.2.2⟩)).or (W.content i m k) := by
  rw [W.inserts h hu k, lastWith_map]
  rfl

/-- **C26** for `CloneConMap`. -/
theorem C26_cloneconmap {eqv : O → K} (W : World (CloneConMap.keyOf (V := V) eqv)) {t i j m : Nat} {l : List (O × V)}
    (h : W.Runs t (CloneConMap.extend m l) i j ()) (hu : W.Undisturbed m t i j) (k : K) :
    W.content j m k = (lastWith (fun x => eqv x.1) l k).or (W.content i m k) := by
  rw [CloneConMap.extend, Prog.map_of_insert_pair] at h
  exact W.inserts h hu k

/-- **C26** for `ConSet`. -/
theorem C26_conset {eqv : T → K} (W : World eqv) {t i j m : Nat} {l : List T} (h : W.Runs t (ConSet.extend m l) i j ()) (hu : W.Undisturbed m t i j)
    (k : K) : W.content j m k = (lastWith eqv l k).or (W.content i m k) :=
  W.inserts h hu k

/-- **C26** for `collect`ing into a new map or set: exactly the last element for each key. -/
theorem C26_from_iter_conmap {eqv : O → K} (W : World (ConMap.keyOf (V := V) eqv)) {t i j m : Nat} {l : List (Nat × O × V)}
    (h : W.Runs t (ConMap.fromIter m l) i j ()) (hu : W.Undisturbed m t i j) (hnew : ∀ k, W.content i m k = none) (k : K) :
    W.content j m k = (lastWith (fun x => eqv x.2.1) l k).map (fun x => ⟨x.1, x.2.1, x.2.2⟩) := by
  rw [C26_conmap W h hu k, hnew, Option.or_none]

theorem C26_from_elements_conmap {eqv : O → K} (W : World (ConMap.keyOf (V := V) eqv)) {t i j m : Nat} {l : List (Arc O V)}
    (h : W.Runs t (ConMap.fromElements m l) i j ()) (hu : W.Undisturbed m t i j) (hnew : ∀ k, W.content i m k = none) (k : K) :
    W.content j m k = lastWith (fun e => eqv e.key) l k := by
  rw [C26_conmap_elements W h hu k, hnew, Option.or_none]

theorem C26_from_iter_cloneconmap {eqv : O → K} (W : World (CloneConMap.keyOf (V := V) eqv)) {t i j m : Nat} {l : List (O × V)}
    (h : W.Runs t (CloneConMap.fromIter m l) i j ()) (hu : W.Undisturbed m t i j) (hnew : ∀ k, W.content i m k = none) (k : K) :
    W.content j m k = lastWith (fun x => eqv x.1) l k := by
  rw [C26_cloneconmap W h hu k, hnew, Option.or_none]

theorem C26_from_iter_conset {eqv : T → K} (W : World eqv) {t i j m : Nat} {l : List T} (h : W.Runs t (ConSet.fromIter m l) i j ())
    (hu : W.Undisturbed m t i j) (hnew : ∀ k, W.content i m k = none) (k : K) : W.content j m k = lastWith eqv l k := by
  rw [C26_conset W h hu k, hnew, Option.or_none]

/-! ### C25 -/

/-- What a pass of the iterator over a map yields, when it may be modified meanwhile. -/
theorem World.iterates {key : P → K} (W : World key) {t i j m : Nat} {l : List P} (h : W.Runs t (Prog.iter m (fun l => l)) i j l) :
    (l.map key).Nodup ∧ (∀ p ∈ l, ∃ τ, i ≤ τ ∧ τ ≤ j ∧ W.content τ m (key p) = some p) ∧
      ∀ k p, (∀ τ, i ≤ τ → τ ≤ j → W.content τ m k = some p) → p ∈ l := by
  cases h with
  | @call _ _ id j1 _ _ x k _ h1 hq1 hc h2 hq2 hr hk =>
    have hle := hk.le
    cases x with
    | op r => cases hk
    | bool b => cases hk
    | list l' =>
      have : l = l' := by cases hk; rfl
      subst this
      have hi := (W.ex m).invoked_of_call hc
      obtain ⟨out, e, hnd⟩ := C11_no_key_twice (W.ex m) hi hr
      cases e
      refine ⟨hnd, ?_, ?_⟩
      · intro p hp
        obtain ⟨τ, a1, a2, a3⟩ := C13_yielded_was_present (W.ex m) hi hr hp
        exact ⟨τ, by omega, by omega, a3⟩
      · intro k p hp
        exact C12_stable_element_yielded (W.ex m) hi hr (fun τ a1 a2 => hp τ (by omega) (by omega))

theorem lastWith_nodup {key : P → K} {l : List P} (h : (l.map key).Nodup) (k : K) (p : P) : lastWith key l k = some p ↔ p ∈ l ∧ key p = k := by
  constructor
  · exact lastWith_some
  · rintro ⟨hp, rfl⟩
    cases hl : lastWith key l (key p) with
    | none => exact absurd rfl (lastWith_none.1 hl p hp)
    | some q =>
      obtain ⟨hq, e⟩ := lastWith_some hl
      rw [List.inj_on_of_nodup_map h hq hp e]

/-- Common part of C25: a pass over map `src`, and then the elements are inserted into the new map `dst`. -/
theorem World.clones {key : P → K} (W : World key) {t i j src dst : Nat}
    (h : W.Runs t ((Prog.iter src (fun l => l)).bind (fun l => Prog.forEach (fun p => Prog.opt dst (.insert p) (fun r => r)) l)) i j ())
    (hu : W.Undisturbed dst t i j) (hnew : ∀ k, W.content i dst k = none) :
    (∀ k p, W.content j dst k = some p → key p = k ∧ ∃ τ, i ≤ τ ∧ τ ≤ j ∧ W.content τ src k = some p) ∧
      ∀ k p, (∀ τ, i ≤ τ → τ ≤ j → W.content τ src k = some p) → W.content j dst k = some p := by
  obtain ⟨l, j1, h1, h2⟩ := h.bind
  have hle1 := h1.le
  have hle2 := h2.le
  obtain ⟨hnd, hreal, hstable⟩ := W.iterates h1
  -- during the pass the session does nothing with `dst`
  have hidle : ∀ n, i ≤ n → n ≤ j1 → W.content n dst = W.content i dst ∧ (src ≠ dst → (((W.ex dst).st n).thr t).run = none) ∧
      (((W.ex dst).st n).thr t).run.elim True (fun c => c.req = .iter) := by
    intro n
    induction n with
    | zero =>
      intro a b
      have : i = 0 := by omega
      subst this
      exact ⟨rfl, fun _ => hu.idle, by rw [hu.idle]; trivial⟩
    | succ n ih =>
      intro a b
      by_cases e : i = n + 1
      · subst e; exact ⟨rfl, fun _ => hu.idle, by rw [hu.idle]; trivial⟩
      · obtain ⟨g1, g2, g3⟩ := ih (by omega) (by omega)
        have hcalls : ∀ m r, (W.ex m).lab n = .call t r → m = src ∧ r = .iter := by
          intro m r hl
          cases h1 with
          | @call _ _ id j2 _ _ x k _ a1 q1 hc a2 q2 hr hk =>
            by_cases b1 : n < id
            · exact absurd hl (q1 n (by omega) b1 m r)
            · by_cases b2 : n = id
              · subst b2
                have := W.sole n m src (by rw [hl]; simp) (by rw [hc]; simp)
                subst this
                rw [hl] at hc; cases hc; exact ⟨rfl, rfl⟩
              · by_cases b3 : n < j2 + 1
                · exact absurd hl (q2 n (by omega) b3 m r)
                · cases x with
                  | op r' => cases hk
                  | bool r' => cases hk
                  | list r' =>
                    cases hk with
                    | ret _ hq => exact absurd hl (hq n (by omega) (by omega) m r)
        refine ⟨?_, ?_, ?_⟩
        · rw [← g1]
          refine (W.ex dst).A_none ?_
          cases hw : (W.ex dst).W n with
          | none => rfl
          | some lp =>
            obtain ⟨u, c, f1, f2, -, -, w, f5⟩ := (W.ex dst).W_call hw
            have hup := (W.ex dst).W_update hw f1 f2.symm
            have := hu.alone n (by omega) (by omega) u w c f5 f1 hup
            subst this
            rw [f1] at g3
            simp only [Option.elim] at g3
            rw [g3] at hup; cases hup
        · intro hne
          cases hrun : (((W.ex dst).st (n + 1)).thr t).run with
          | none => rfl
          | some c' =>
            rcases step_run ((W.ex dst).step n) hrun with ⟨c0, e1, e2, e3⟩ | ⟨e1, e2, e3⟩
            · rw [g2 hne] at e1; cases e1
            · exact absurd (hcalls dst _ e3).1.symm hne
        · cases hrun : (((W.ex dst).st (n + 1)).thr t).run with
          | none => trivial
          | some c' =>
            rcases step_run ((W.ex dst).step n) hrun with ⟨c0, e1, e2, e3⟩ | ⟨e1, e2, e3⟩
            · rw [e1] at g3; simp only [Option.elim] at g3 ⊢; rw [← e3, g3]
            · exact (hcalls dst _ e3).2
  obtain ⟨c1, c2, -⟩ := hidle j1 hle1 (Nat.le_refl _)
  by_cases hsd : src = dst
  · -- a map cannot be cloned into itself; but then both are empty
    subst hsd
    have hnil : l = [] := by
      cases l with
      | nil => rfl
      | cons p l =>
        obtain ⟨τ, a1, a2, a3⟩ := hreal p (by simp)
        rw [(hidle τ a1 a2).1, hnew] at a3; cases a3
    subst hnil
    have hlast : ∀ n, j1 ≤ n → n ≤ j → W.content n src = W.content j1 src := by
      have hrun : (((W.ex src).st j1).thr t).run = none := by
        cases h1 with
        | @call _ _ id j2 _ _ x k _ a1 q1 hc a2 q2 hr hk =>
          have hdone : (((W.ex src).st (j2 + 1)).thr t).run = none := by
            obtain ⟨t', c, refs, weak, k1, k2, k3, k4, k5, k6, k7, k8⟩ := (W.ex src).res hr
            obtain ⟨c', f1, f2, -⟩ := (W.ex src).busy hc hr (τ := j2) (by omega) (Nat.le_refl _)
            have := ((W.ex src).inv j2).inj t' t c c' k2 f1 (by rw [k3, f2])
            subst this; exact k6
          have hq : W.Quiet t (j2 + 1) j1 := by
            cases x with
            | op r' => cases hk
            | bool r' => cases hk
            | list r' => cases hk with | ret _ hq => exact hq
          have hle3 := hk.le
          have : ∀ n, j2 + 1 ≤ n → n ≤ j1 → (((W.ex src).st n).thr t).run = none := by
            intro n
            induction n with
            | zero => intro a b; omega
            | succ n ih =>
              intro a b
              by_cases e : j2 = n
              · subst e; exact hdone
              · cases hrun : (((W.ex src).st (n + 1)).thr t).run with
                | none => rfl
                | some c' =>
                  rcases step_run ((W.ex src).step n) hrun with ⟨c0, e1, e2, e3⟩ | ⟨e1, e2, e3⟩
                  · rw [ih (by omega) (by omega)] at e1; cases e1
                  · exact absurd e3 (hq n (by omega) (by omega) src _)
          exact this j1 hle3 (Nat.le_refl _)
      have hins := fun k => W.inserts h2 (hu.sub hrun hle1 (Nat.le_refl _)) k
      intro n a b
      cases h2 with
      | ret _ hq =>
        have : ∀ n, j1 ≤ n → n ≤ j → W.content n src = W.content j1 src ∧ (((W.ex src).st n).thr t).run = none := by
          intro n
          induction n with
          | zero => intro a b; rw [show j1 = 0 by omega]; exact ⟨rfl, by rw [show j1 = 0 by omega] at hrun; exact hrun⟩
          | succ n ih =>
            intro a b
            by_cases e : j1 = n + 1
            · subst e; exact ⟨rfl, hrun⟩
            · obtain ⟨f1, f2⟩ := ih (by omega) (by omega)
              refine ⟨?_, ?_⟩
              · rw [← f1]
                refine (W.ex src).A_none ?_
                cases hw : (W.ex src).W n with
                | none => rfl
                | some lp =>
                  obtain ⟨u, c, f3, f4, -, -, w, f5⟩ := (W.ex src).W_call hw
                  have hup := (W.ex src).W_update hw f3 f4.symm
                  have := hu.alone n (by omega) (by omega) u w c f5 f3 hup
                  subst this
                  rw [f2] at f3; cases f3
              · cases hrun' : (((W.ex src).st (n + 1)).thr t).run with
                | none => rfl
                | some c' =>
                  rcases step_run ((W.ex src).step n) hrun' with ⟨c0, e1, e2, e3⟩ | ⟨e1, e2, e3⟩
                  · rw [f2] at e1; cases e1
                  · exact absurd e3 (hq n (by omega) (by omega) src _)
        exact (this n a b).1
    refine ⟨?_, ?_⟩
    · intro k p hp
      rw [hlast j hle2 (Nat.le_refl _), c1, hnew] at hp; cases hp
    · intro k p hp
      have := hp i (Nat.le_refl _) (by omega)
      rw [hnew] at this; cases this
  · have hins := fun k => W.inserts h2 (hu.sub (c2 hsd) hle1 (Nat.le_refl _)) k
    have hd : ∀ k, W.content j dst k = lastWith key l k := by
      intro k
      rw [hins k, c1, hnew, Option.or_none]
    refine ⟨?_, ?_⟩
    · intro k p hp
      rw [hd, lastWith_nodup hnd] at hp
      obtain ⟨hp, rfl⟩ := hp
      obtain ⟨τ, a1, a2, a3⟩ := hreal p hp
      exact ⟨rfl, τ, a1, by omega, a3⟩
    · intro k p hp
      rw [hd, lastWith_nodup hnd]
      refine ⟨hstable k p (fun τ a b => hp τ a (by omega)), ?_⟩
      exact W.keyed i src k p (hp i (Nat.le_refl _) (by omega))

theorem Prog.clone_pair {src dst : Nat} : CloneConMap.clone (K := K) (O := O) (V := V) src dst =
    (Prog.iter src (fun l => l)).bind (fun l => Prog.forEach (fun p => Prog.opt dst (.insert p) (fun r => r)) l) := by
  simp only [CloneConMap.clone, CloneConMap.iter, CloneConMap.extend, Prog.map_of_insert_pair]

/-- **C25** for `ConMap`: the clone (`dst`) of a map (`src`) that is not modified meanwhile has the same content - the very same elements. -/
theorem C25_conmap {eqv : O → K} (W : World (ConMap.keyOf (V := V) eqv)) {t i j src dst : Nat} (h : W.Runs t (ConMap.clone src dst) i j ())
    (hnew : ∀ k, W.content i dst k = none) (hu : W.Undisturbed dst t i j) (hsrc : ∀ n, i ≤ n → n ≤ j → W.content n src = W.content i src) :
    W.content j dst = W.content i src ∧ W.content j src = W.content i src := by
  have hle := h.le
  obtain ⟨h1, h2⟩ := W.clones h hu hnew
  refine ⟨?_, hsrc j hle (Nat.le_refl _)⟩
  funext k
  cases hk : W.content i src k with
  | some p => exact h2 k p (fun τ a b => by rw [hsrc τ a b]; exact hk)
  | none =>
    cases hd : W.content j dst k with
    | none => rfl
    | some p =>
      obtain ⟨-, τ, a, b, e⟩ := h1 k p hd
      rw [hsrc τ a b, hk] at e; cases e

/-- **C25** for `CloneConMap`. -/
theorem C25_cloneconmap {eqv : O → K} (W : World (CloneConMap.keyOf (V := V) eqv)) {t i j src dst : Nat} (h : W.Runs t (CloneConMap.clone src dst) i j ())
    (hnew : ∀ k, W.content i dst k = none) (hu : W.Undisturbed dst t i j) (hsrc : ∀ n, i ≤ n → n ≤ j → W.content n src = W.content i src) :
    W.content j dst = W.content i src ∧ W.content j src = W.content i src := by
  have hle := h.le
  rw [Prog.clone_pair] at h
  obtain ⟨h1, h2⟩ := W.clones h hu hnew
  refine ⟨?_, hsrc j hle (Nat.le_refl _)⟩
  funext k
  cases hk : W.content i src k with
  | some p => exact h2 k p (fun τ a b => by rw [hsrc τ a b]; exact hk)
  | none =>
    cases hd : W.content j dst k with
    | none => rfl
    | some p =>
      obtain ⟨-, τ, a, b, e⟩ := h1 k p hd
      rw [hsrc τ a b, hk] at e; cases e

/-- **C25**, cloning a map that others modify meanwhile: each binding of the clone was a binding of the map at some instant during the call, and each binding
that the map had during the whole call is in the clone. -/
theorem C25_conmap_concurrent {eqv : O → K} (W : World (ConMap.keyOf (V := V) eqv)) {t i j src dst : Nat} (h : W.Runs t (ConMap.clone src dst) i j ())
    (hnew : ∀ k, W.content i dst k = none) (hu : W.Undisturbed dst t i j) (k : K) (e : Arc O V) :
    (W.content j dst k = some e → ∃ τ, i ≤ τ ∧ τ ≤ j ∧ W.content τ src k = some e) ∧
      ((∀ τ, i ≤ τ → τ ≤ j → W.content τ src k = some e) → W.content j dst k = some e) :=
  ⟨fun hd => ((W.clones h hu hnew).1 k e hd).2, (W.clones h hu hnew).2 k e⟩

theorem C25_cloneconmap_concurrent {eqv : O → K} (W : World (CloneConMap.keyOf (V := V) eqv)) {t i j src dst : Nat}
    (h : W.Runs t (CloneConMap.clone src dst) i j ()) (hnew : ∀ k, W.content i dst k = none) (hu : W.Undisturbed dst t i j) (k : K) (e : O × V) :
    (W.content j dst k = some e → ∃ τ, i ≤ τ ∧ τ ≤ j ∧ W.content τ src k = some e) ∧
      ((∀ τ, i ≤ τ → τ ≤ j → W.content τ src k = some e) → W.content j dst k = some e) := by
  rw [Prog.clone_pair] at h
  exact ⟨fun hd => ((W.clones h hu hnew).1 k e hd).2, (W.clones h hu hnew).2 k e⟩

/-- **C25**, independence: while nobody makes a step of an update of map `m`, the content of map `m` does not change - whatever happens to the map it was cloned from or
to its clones. -/
theorem C25_independent {key : P → K} (W : World key) {m a b : Nat} (hab : a ≤ b)
    (h : ∀ n, a ≤ n → n < b → ∀ t w c, (W.ex m).lab n = .tick t w → (((W.ex m).st n).thr t).run = some c → c.req.isUpdate = false) :
    W.content b m = W.content a m := by
  induction b with
  | zero => rw [show a = 0 by omega]
  | succ b ih =>
    by_cases e : a = b + 1
    · rw [e]
    · rw [← ih (by omega) (fun n x y => h n x (by omega))]
      refine (W.ex m).A_none ?_
      cases hw : (W.ex m).W b with
      | none => rfl
      | some lp =>
        obtain ⟨u, c, f1, f2, -, -, w, f3⟩ := (W.ex m).W_call hw
        have hup := (W.ex m).W_update hw f1 f2.symm
        rw [h b (by omega) (by omega) u w c f3 f1] at hup; cases hup

/-! ### C27 -/

/-- The calls a program can make. -/
def Prog.Calls (m : Nat) (r : Req K P) : Prog K P α → Prop
  | .ret _ => False
  | .call m' r' k => (m' = m ∧ r' = r) ∨ ∃ x, (k x).Calls m r
  | .wrong => False

/-- The calls of the session are those of the program. -/
theorem World.Runs.calls {key : P → K} {W : World key} {t i j : Nat} {p : Prog K P α} {a : α} (h : W.Runs t p i j a) {n m : Nat} {r : Req K P}
    (h1 : i ≤ n) (h2 : n < j) (hl : (W.ex m).lab n = .call t r) : p.Calls m r := by
  induction h with
  | ret h hq => exact absurd hl (hq n h1 h2 m r)
  | @call m0 i id j j' r0 x k a g1 q1 hc g2 q2 hev hk ih =>
    by_cases b1 : n < id
    · exact absurd hl (q1 n h1 b1 m r)
    · by_cases b2 : n = id
      · subst b2
        have := W.sole n m m0 (by rw [hl]; simp) (by rw [hc]; simp)
        subst this
        rw [hl] at hc; cases hc; exact Or.inl ⟨rfl, rfl⟩
      · by_cases b3 : n < j + 1
        · exact absurd hl (q2 n (by omega) b3 m r)
        · exact Or.inr ⟨x, ih (by omega) h2⟩

theorem Prog.Calls.bind {m : Nat} {r : Req K P} {p : Prog K P α} {f : α → Prog K P β} (h : (p.bind f).Calls m r) :
    p.Calls m r ∨ ∃ a, (f a).Calls m r := by
  induction p with
  | ret a => exact Or.inr ⟨a, h⟩
  | wrong => exact h.elim
  | call m' r' k ih =>
    rcases h with h | ⟨x, h⟩
    · exact Or.inl (Or.inl h)
    · rcases ih x h with h | h
      · exact Or.inl (Or.inr ⟨x, h⟩)
      · exact Or.inr h

theorem Prog.Calls.inserts {m m' : Nat} {r : Req K P} {l : List P} (h : (Prog.forEach (fun p => Prog.opt m (.insert p) (fun r => r)) l).Calls m' r) :
    ∃ p ∈ l, r = .op (.insert p) := by
  induction l with
  | nil => exact h.elim
  | cons p l ih =>
    rcases Prog.Calls.bind h with h | ⟨a, h⟩
    · rcases h with ⟨-, h⟩ | ⟨x, h⟩
      · exact ⟨p, by simp, h.symm⟩
      · cases x with
        | op r => cases r <;> exact h.elim
        | bool b => exact h.elim
        | list l => exact h.elim
    · obtain ⟨q, hq, e⟩ := ih h
      exact ⟨q, by simp [hq], e⟩

/-- Each element is inserted in the time the program runs. -/
theorem World.Runs.inserted {key : P → K} {W : World key} {t i j m : Nat} {l : List P}
    (h : W.Runs t (Prog.forEach (fun p => Prog.opt m (.insert p) (fun r => r)) l) i j ()) {p : P} (hp : p ∈ l) :
    ∃ id j' x, i ≤ id ∧ j' < j ∧ (W.ex m).Invoked id (.op (.insert p)) ∧ (W.ex m).Returns j' id x := by
  induction l generalizing i with
  | nil => cases hp
  | cons q l ih =>
    obtain ⟨a, j1, h1, h2⟩ := World.Runs.bind h
    have hle1 := h1.le
    have hle2 := h2.le
    rcases List.mem_cons.1 hp with rfl | hp
    · cases h1 with
      | @call _ _ id j2 _ _ x k _ g1 q1 hc g2 q2 hev hk =>
        have := hk.le
        exact ⟨id, j2, x, g1, by omega, (W.ex m).invoked_of_call hc, hev⟩
    · obtain ⟨id, j', x, a1, a2, a3, a4⟩ := ih h2 hp
      exact ⟨id, j', x, by omega, a2, a3, a4⟩

/-- Common part of C27: several sessions insert elements into map `m`, each one its part, in any interleaving, and nobody else is updating map `m` meanwhile. -/
theorem World.par_inserts {key : P → K} (W : World key) {i j m : Nat} (hij : i ≤ j) (parts : List (Nat × List P))
    (hrun : ∀ x ∈ parts, W.Runs x.1 (Prog.forEach (fun p => Prog.opt m (.insert p) (fun r => r)) x.2) i j ())
    (hidle : ∀ x ∈ parts, (((W.ex m).st i).thr x.1).run = none)
    (halone : ∀ n, i ≤ n → n < j → ∀ t w c, (W.ex m).lab n = .tick t w → (((W.ex m).st n).thr t).run = some c → c.req.isUpdate = true → ∃ l, (t, l) ∈ parts)
    (k : K) :
    ((∃ x ∈ parts, ∃ p ∈ x.2, key p = k) → ∃ x ∈ parts, ∃ p ∈ x.2, key p = k ∧ W.content j m k = some p) ∧
      ((∀ x ∈ parts, ∀ p ∈ x.2, key p ≠ k) → W.content j m k = W.content i m k) := by
  -- what takes effect is the insertion of one of the elements
  have hW : ∀ n lp, i ≤ n → n < j → (W.ex m).W n = some lp → ∃ x ∈ parts, ∃ p ∈ x.2, lp.op = .insert p := by
    intro n lp a b hw
    obtain ⟨u, c, f1, f2, f3, -, w, f4⟩ := (W.ex m).W_call hw
    have hup := (W.ex m).W_update hw f1 f2.symm
    obtain ⟨l, hl⟩ := halone n a b u w c f4 f1 hup
    obtain ⟨e1, e2, e3⟩ := (W.ex m).run_inv n f1
    have hge : i ≤ c.inv := by
      by_cases hlt : i ≤ c.inv
      · exact hlt
      · obtain ⟨c', g1, -⟩ := (W.ex m).run_back f1 (τ := i) (by omega) a
        rw [hidle _ hl] at g1; cases g1
    obtain ⟨p, hp, e⟩ := ((hrun _ hl).calls hge (by omega) e3).inserts
    have : c.req = .op lp.op := f3
    rw [this] at e
    injection e with e
    exact ⟨_, hl, p, hp, e⟩
  -- one step
  have hstep : ∀ n, i ≤ n → n < j → W.content (n + 1) m k = W.content n m k ∨
      ∃ x ∈ parts, ∃ p ∈ x.2, key p = k ∧ W.content (n + 1) m k = some p := by
    intro n a b
    cases hw : (W.ex m).W n with
    | none => exact Or.inl (congrFun ((W.ex m).A_none hw) k)
    | some lp =>
      obtain ⟨x, hx, p, hp, e⟩ := hW n lp a b hw
      have := (W.ex m).A_some hw
      rw [e] at this
      simp only [AMap.apply, Prod.mk.injEq] at this
      have hc : W.content (n + 1) m k = AMap.set (W.content n m) (key p) (some p) k := (congrFun this.1 k).symm
      simp only [AMap.set] at hc
      by_cases ek : k = key p
      · rw [if_pos ek] at hc
        exact Or.inr ⟨x, hx, p, hp, ek.symm, hc⟩
      · rw [if_neg ek] at hc
        exact Or.inl hc
  refine ⟨?_, ?_⟩
  · rintro ⟨x, hx, p, hp, e⟩
    obtain ⟨id, j', r, a1, a2, a3, a4⟩ := (hrun x hx).inserted hp
    -- at some instant the key is bound to an element of the input
    have hsome : ∃ τ, i ≤ τ ∧ τ ≤ j ∧ ∃ x ∈ parts, ∃ p ∈ x.2, key p = k ∧ W.content τ m k = some p := by
      have hf := (W.ex m).fits a3 a4
      cases r with
      | op ret =>
        obtain ⟨hlt, ⟨τ, b1, b2, b3⟩ | ⟨b0, τ, b1, b2, b3⟩⟩ := (W.ex m).res_op a3 a4
        · refine ⟨τ + 1, by omega, by omega, x, hx, p, hp, e, ?_⟩
          have := (W.ex m).A_some b3
          simp only [AMap.apply, Prod.mk.injEq] at this
          have hc : W.content (τ + 1) m k = AMap.set (W.content τ m) (key p) (some p) k := (congrFun this.1 k).symm
          rw [hc, AMap.set, if_pos e.symm]
        · refine ⟨τ, by omega, by omega, x, hx, p, hp, e, ?_⟩
          simp only [AMap.apply, Prod.mk.injEq] at b3
          have hc : W.content τ m k = AMap.set (W.content τ m) (key p) (some p) k := (congrFun b3.1 k).symm
          rw [hc, AMap.set, if_pos e.symm]
      | bool b => exact hf.elim
      | list l => exact hf.elim
    obtain ⟨τ, b1, b2, hτ⟩ := hsome
    have : ∀ n, τ ≤ n → n ≤ j → ∃ x ∈ parts, ∃ p ∈ x.2, key p = k ∧ W.content n m k = some p := by
      intro n
      induction n with
      | zero => intro a b; rw [show τ = 0 by omega] at hτ; exact hτ
      | succ n ih =>
        intro a b
        by_cases e : τ = n + 1
        · rw [e] at hτ; exact hτ
        · obtain ⟨x, hx, p, hp, e1, e2⟩ := ih (by omega) (by omega)
          rcases hstep n (by omega) (by omega) with h | h
          · exact ⟨x, hx, p, hp, e1, by rw [h]; exact e2⟩
          · exact h
    exact this j b2 (Nat.le_refl _)
  · intro hno
    have : ∀ n, i ≤ n → n ≤ j → W.content n m k = W.content i m k := by
      intro n
      induction n with
      | zero => intro a b; rw [show i = 0 by omega]
      | succ n ih =>
        intro a b
        by_cases e : i = n + 1
        · rw [e]
        · rcases hstep n (by omega) (by omega) with h | ⟨x, hx, p, hp, e1, -⟩
          · rw [h, ih (by omega) (by omega)]
          · exact absurd e1 (hno x hx p hp)
    exact this j hij (Nat.le_refl _)

/-- **C27** for `ConMap`: the items of a parallel iterator are distributed over sessions (`parts`: a session and the elements it inserts, one after the other, between
the instants `i` and `j`), in any way and with any interleaving; nobody else updates the map meanwhile (others may read). Then every key of the input is
bound to one of the elements of the input for that key, all other keys are as before. -/
theorem C27_conmap {eqv : O → K} (W : World (ConMap.keyOf (V := V) eqv)) {i j m : Nat} (hij : i ≤ j) (parts : List (Nat × List (Arc O V)))
    (hrun : ∀ x ∈ parts, W.Runs x.1 (ConMap.extendElements m x.2) i j ())
    (hidle : ∀ x ∈ parts, (((W.ex m).st i).thr x.1).run = none)
    (halone : ∀ n, i ≤ n → n < j → ∀ t w c, (W.ex m).lab n = .tick t w → (((W.ex m).st n).thr t).run = some c → c.req.isUpdate = true → ∃ l, (t, l) ∈ parts)
    (k : K) :
    ((∃ x ∈ parts, ∃ e ∈ x.2, eqv e.key = k) → ∃ x ∈ parts, ∃ e ∈ x.2, eqv e.key = k ∧ W.content j m k = some e) ∧
      ((∀ x ∈ parts, ∀ e ∈ x.2, eqv e.key ≠ k) → W.content j m k = W.content i m k) :=
  W.par_inserts hij parts hrun hidle halone k

/-- **C27** for `CloneConMap`. -/
theorem C27_cloneconmap {eqv : O → K} (W : World (CloneConMap.keyOf (V := V) eqv)) {i j m : Nat} (hij : i ≤ j) (parts : List (Nat × List (O × V)))
    (hrun : ∀ x ∈ parts, W.Runs x.1 (CloneConMap.extend m x.2) i j ())
    (hidle : ∀ x ∈ parts, (((W.ex m).st i).thr x.1).run = none)
    (halone : ∀ n, i ≤ n → n < j → ∀ t w c, (W.ex m).lab n = .tick t w → (((W.ex m).st n).thr t).run = some c → c.req.isUpdate = true → ∃ l, (t, l) ∈ parts)
    (k : K) :
    ((∃ x ∈ parts, ∃ e ∈ x.2, eqv e.1 = k) → ∃ x ∈ parts, ∃ e ∈ x.2, eqv e.1 = k ∧ W.content j m k = some e) ∧
      ((∀ x ∈ parts, ∀ e ∈ x.2, eqv e.1 ≠ k) → W.content j m k = W.content i m k) :=
  W.par_inserts hij parts (fun x hx => by have := hrun x hx; rwa [CloneConMap.extend, Prog.map_of_insert_pair] at this) hidle halone k

/-- **C27** for `ConSet`. -/
theorem C27_conset {eqv : T → K} (W : World eqv) {i j m : Nat} (hij : i ≤ j) (parts : List (Nat × List T))
    (hrun : ∀ x ∈ parts, W.Runs x.1 (ConSet.extend m x.2) i j ())
    (hidle : ∀ x ∈ parts, (((W.ex m).st i).thr x.1).run = none)
    (halone : ∀ n, i ≤ n → n < j → ∀ t w c, (W.ex m).lab n = .tick t w → (((W.ex m).st n).thr t).run = some c → c.req.isUpdate = true → ∃ l, (t, l) ∈ parts)
    (k : K) :
    ((∃ x ∈ parts, ∃ v ∈ x.2, eqv v = k) → ∃ x ∈ parts, ∃ v ∈ x.2, eqv v = k ∧ W.content j m k = some v) ∧
      ((∀ x ∈ parts, ∀ v ∈ x.2, eqv v ≠ k) → W.content j m k = W.content i m k) :=
  W.par_inserts hij parts hrun hidle halone k

end Contrie
