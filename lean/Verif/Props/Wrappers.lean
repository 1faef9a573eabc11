import Verif.Proof.Wrappers
/-
The wrapper types `ConMap`, `CloneConMap` and `ConSet`: C25 (clone), C26 (extend, from_iter), C28 (set), C29 (maps).
-/
set_option linter.unusedSectionVars false
namespace Contrie
variable {K P O V T α β : Type} [DecidableEq K]

/-! ### The calls as programs -/

/-- A call of `ConMap` on map `m`; the `n`-th `Arc::new` of the call returns address `addr n`. -/
def MapCall.conMap [Inhabited V] (eqv : O → K) (m : Nat) (addr : Nat → Nat) : MapCall K O V → Prog K (Arc O V) (MapRet (Arc O V))
  | .insert key v => (ConMap.insert m (addr 0) key v).bind (fun r => .ret (.opt r))
  | .getOrInsert key v => (ConMap.getOrInsert eqv m (addr 0) key v).bind (fun r => .ret (.eon r))
  | .getOrInsertWith key f => (ConMap.getOrInsertWith eqv m (addr 0) key f).bind (fun r => .ret (.eon r))
  | .getOrInsertDefault key => (ConMap.getOrInsertDefault eqv m (addr 0) key).bind (fun r => .ret (.eon r))
  | .get k => (ConMap.get m k).bind (fun r => .ret (.opt r))
  | .remove k => (ConMap.remove m k).bind (fun r => .ret (.opt r))
  | .isEmpty => (ConMap.isEmpty m).bind (fun r => .ret (.bool r))
  | .iter => (ConMap.iter m).bind (fun r => .ret (.list r))
  | .extend l => (ConMap.extend m (l.zipIdx.map (fun x => (addr x.2, x.1.1, x.1.2)))).bind (fun _ => .ret .unit)

/-- A call of `CloneConMap` on map `m`. -/
def MapCall.cloneConMap [Inhabited V] (eqv : O → K) (m : Nat) : MapCall K O V → Prog K (O × V) (MapRet (O × V))
  | .insert key v => (CloneConMap.insert m key v).bind (fun r => .ret (.opt r))
  | .getOrInsert key v => (CloneConMap.getOrInsert eqv m key v).bind (fun r => .ret (.eon r))
  | .getOrInsertWith key f => (CloneConMap.getOrInsertWith eqv m key f).bind (fun r => .ret (.eon r))
  | .getOrInsertDefault key => (CloneConMap.getOrInsertDefault eqv m key).bind (fun r => .ret (.eon r))
  | .get k => (CloneConMap.get m k).bind (fun r => .ret (.opt r))
  | .remove k => (CloneConMap.remove m k).bind (fun r => .ret (.opt r))
  | .isEmpty => (CloneConMap.isEmpty m).bind (fun r => .ret (.bool r))
  | .iter => (CloneConMap.iter m).bind (fun r => .ret (.list r))
  | .extend l => (CloneConMap.extend m l).bind (fun _ => .ret .unit)

/-- A call of `ConSet` on set `m`. -/
def SetCall.conSet (m : Nat) : SetCall K T → Prog K T (MapRet T)
  | .insert v => (ConSet.insert m v).bind (fun r => .ret (.opt r))
  | .get k => (ConSet.get m k).bind (fun r => .ret (.opt r))
  | .contains k => (ConSet.contains m k).bind (fun r => .ret (.bool r))
  | .remove k => (ConSet.remove m k).bind (fun r => .ret (.opt r))
  | .isEmpty => (ConSet.isEmpty m).bind (fun r => .ret (.bool r))
  | .iter => (ConSet.iter m).bind (fun r => .ret (.list r))
  | .extend l => (ConSet.extend m l).bind (fun _ => .ret .unit)

/-! ### Helpers -/

theorem Prog.Means.of_optret {key : P → K} {A A' : Nat → AMap K P} {m : Nat} {o : Op K P} {f : Option P → α} {g : α → β} {a : β}
    (h : ((Prog.opt m o f).bind (fun r => .ret (g r))).Means key A a A') :
    ∃ y A1, (A m).apply key o = (A1, .opt y) ∧ a = g (f y) ∧ A' = upd A m A1 := by
  obtain ⟨b, A1, h1, h2⟩ := h.bind
  obtain ⟨y, B, e1, e2, e3⟩ := h1.of_opt
  obtain ⟨e4, e5⟩ := h2.of_ret
  exact ⟨y, B, e1, by rw [e4, e2], by rw [e5, e3]⟩

theorem Prog.Means.of_goi {key : P → K} {A A' : Nat → AMap K P} {m : Nat} {k : K} {p : P} {a : MapRet P}
    (h : ((Prog.eon m (.getOrInsert k (fun _ => p)) (fun r => r.map id)).bind (fun r => .ret (.eon r))).Means key A a A') :
    GetOrInsertSpec (A m) k p a (A' m) ∧ ∀ m', m' ≠ m → A' m' = A m' := by
  obtain ⟨b, A1, h1, h2⟩ := h.bind
  obtain ⟨y, B, e1, e2, e3⟩ := h1.of_eon
  obtain ⟨e4, e5⟩ := h2.of_ret
  subst e4 e5 e3 e2
  refine ⟨?_, fun m' hm => upd_other _ _ hm⟩
  simp only [AMap.apply] at e1
  simp only [GetOrInsertSpec, upd_same]
  cases hk : A m k with
  | some e => rw [hk] at e1; cases e1; exact ⟨rfl, rfl⟩
  | none => rw [hk] at e1; cases e1; exact ⟨rfl, rfl⟩

theorem Prog.AsksEmpty.bind {p : Prog K P α} {f : α → Prog K P β} (h : (p.bind f).AsksEmpty) : p.AsksEmpty ∨ ∃ a, (f a).AsksEmpty := by
  induction p with
  | ret a => exact Or.inr ⟨a, h⟩
  | wrong => exact h.elim
  | call m r k ih =>
    rcases h with h | ⟨x, h⟩
    · exact Or.inl (Or.inl h)
    · rcases ih x h with h | h
      · exact Or.inl (Or.inr ⟨x, h⟩)
      · exact Or.inr h

theorem Prog.AsksEmpty.opt {m : Nat} {o : Op K P} {f : Option P → α} : ¬ (Prog.opt m o f).AsksEmpty := by
  rintro (h | ⟨x, h⟩)
  · cases h
  · cases x with
    | op r => cases r <;> exact h
    | bool b => exact h
    | list l => exact h

theorem Prog.AsksEmpty.eon {m : Nat} {o : Op K P} {f : ExistingOrNew P → α} : ¬ (Prog.eon m o f).AsksEmpty := by
  rintro (h | ⟨x, h⟩)
  · cases h
  · cases x with
    | op r => cases r <;> exact h
    | bool b => exact h
    | list l => exact h

theorem Prog.AsksEmpty.iter {m : Nat} {f : List P → α} : ¬ (Prog.iter (K := K) m f).AsksEmpty := by
  rintro (h | ⟨x, h⟩)
  · cases h
  · cases x <;> exact h

theorem Prog.AsksEmpty.forEach {f : α → Prog K P β} {l : List α} (hf : ∀ a, ¬ (f a).AsksEmpty) : ¬ (Prog.forEach f l).AsksEmpty := by
  induction l with
  | nil => exact fun h => h
  | cons a l ih =>
    intro h
    rcases Prog.AsksEmpty.bind h with h | ⟨_, h⟩
    · exact hf a h
    · exact ih h

theorem Prog.AsksEmpty.all {l : List (Prog K P α)} (h : (Prog.all l).AsksEmpty) : ∃ p ∈ l, p.AsksEmpty := by
  induction l with
  | nil => exact h.elim
  | cons p l ih =>
    rcases Prog.AsksEmpty.bind h with h | ⟨a, h⟩
    · exact ⟨p, by simp, h⟩
    · rcases Prog.AsksEmpty.bind h with h | ⟨as, h⟩
      · obtain ⟨q, hq, h⟩ := ih h; exact ⟨q, by simp [hq], h⟩
      · exact h.elim

theorem not_asks {p : Prog K P α} {f : α → Prog K P β} (h1 : ¬ p.AsksEmpty) (h2 : ∀ a, ¬ (f a).AsksEmpty) : ¬ (p.bind f).AsksEmpty := by
  intro h
  rcases h.bind with h | ⟨a, h⟩
  · exact h1 h
  · exact h2 a h

theorem MapCall.conMap_asks [Inhabited V] {eqv : O → K} {m : Nat} {addr : Nat → Nat} {c : MapCall K O V} (h : (c.conMap eqv m addr).AsksEmpty) :
    c = .isEmpty := by
  cases c with
  | isEmpty => rfl
  | iter => exact absurd h (not_asks Prog.AsksEmpty.iter (fun _ h => h))
  | extend l => exact absurd h (not_asks (Prog.AsksEmpty.forEach (fun _ => Prog.AsksEmpty.opt)) (fun _ h => h))
  | insert | get | remove => exact absurd h (not_asks Prog.AsksEmpty.opt (fun _ h => h))
  | getOrInsert | getOrInsertWith | getOrInsertDefault => exact absurd h (not_asks Prog.AsksEmpty.eon (fun _ h => h))

theorem MapCall.cloneConMap_asks [Inhabited V] {eqv : O → K} {m : Nat} {c : MapCall K O V} (h : (c.cloneConMap eqv m).AsksEmpty) :
    c = .isEmpty := by
  cases c with
  | isEmpty => rfl
  | iter => exact absurd h (not_asks Prog.AsksEmpty.iter (fun _ h => h))
  | extend l => exact absurd h (not_asks (Prog.AsksEmpty.forEach (fun _ => Prog.AsksEmpty.opt)) (fun _ h => h))
  | insert | get | remove => exact absurd h (not_asks Prog.AsksEmpty.opt (fun _ h => h))
  | getOrInsert | getOrInsertWith | getOrInsertDefault => exact absurd h (not_asks Prog.AsksEmpty.eon (fun _ h => h))

theorem SetCall.conSet_asks {m : Nat} {c : SetCall K T} (h : (c.conSet m).AsksEmpty) : c = .isEmpty := by
  cases c with
  | isEmpty => rfl
  | iter => exact absurd h (not_asks Prog.AsksEmpty.iter (fun _ h => h))
  | extend l => exact absurd h (not_asks (Prog.AsksEmpty.forEach (fun _ => Prog.AsksEmpty.opt)) (fun _ h => h))
  | insert | get | remove | contains => exact absurd h (not_asks Prog.AsksEmpty.opt (fun _ h => h))

theorem MapCall.conMap_typed [Inhabited V] {eqv : O → K} {m : Nat} {addr : Nat → Nat} (c : MapCall K O V) :
    (c.conMap eqv m addr).Typed (ConMap.keyOf eqv) := by
  cases c with
  | isEmpty => exact Prog.Typed.isEmpty.bind (fun _ => trivial)
  | iter => exact Prog.Typed.iter.bind (fun _ => trivial)
  | extend l => exact (Prog.Typed.forEach (fun _ => Prog.Typed.opt trivial) _).bind (fun _ => trivial)
  | insert | get | remove => exact (Prog.Typed.opt trivial).bind (fun _ => trivial)
  | getOrInsert | getOrInsertWith | getOrInsertDefault => exact (Prog.Typed.eon rfl).bind (fun _ => trivial)

theorem MapCall.cloneConMap_typed [Inhabited V] {eqv : O → K} {m : Nat} (c : MapCall K O V) :
    (c.cloneConMap eqv m).Typed (CloneConMap.keyOf eqv) := by
  cases c with
  | isEmpty => exact Prog.Typed.isEmpty.bind (fun _ => trivial)
  | iter => exact Prog.Typed.iter.bind (fun _ => trivial)
  | extend l => exact (Prog.Typed.forEach (fun _ => Prog.Typed.opt trivial) _).bind (fun _ => trivial)
  | insert | get | remove => exact (Prog.Typed.opt trivial).bind (fun _ => trivial)
  | getOrInsert | getOrInsertWith | getOrInsertDefault => exact (Prog.Typed.eon rfl).bind (fun _ => trivial)

theorem SetCall.conSet_typed {eqv : T → K} {m : Nat} (c : SetCall K T) : (c.conSet m).Typed eqv := by
  cases c with
  | isEmpty => exact Prog.Typed.isEmpty.bind (fun _ => trivial)
  | iter => exact Prog.Typed.iter.bind (fun _ => trivial)
  | extend l => exact (Prog.Typed.forEach (fun _ => Prog.Typed.opt trivial) _).bind (fun _ => trivial)
  | insert | get | remove | contains => exact (Prog.Typed.opt trivial).bind (fun _ => trivial)

theorem MapCall.conMap_on [Inhabited V] {eqv : O → K} {m : Nat} {addr : Nat → Nat} (c : MapCall K O V) : (c.conMap eqv m addr).On m := by
  cases c with
  | isEmpty => exact Prog.On.isEmpty.bind (fun _ => trivial)
  | iter => exact Prog.On.iter.bind (fun _ => trivial)
  | extend l => exact (Prog.On.forEach (fun _ => Prog.On.opt) _).bind (fun _ => trivial)
  | insert | get | remove => exact Prog.On.opt.bind (fun _ => trivial)
  | getOrInsert | getOrInsertWith | getOrInsertDefault => exact Prog.On.eon.bind (fun _ => trivial)

theorem MapCall.cloneConMap_on [Inhabited V] {eqv : O → K} {m : Nat} (c : MapCall K O V) : (c.cloneConMap eqv m).On m := by
  cases c with
  | isEmpty => exact Prog.On.isEmpty.bind (fun _ => trivial)
  | iter => exact Prog.On.iter.bind (fun _ => trivial)
  | extend l => exact (Prog.On.forEach (fun _ => Prog.On.opt) _).bind (fun _ => trivial)
  | insert | get | remove => exact Prog.On.opt.bind (fun _ => trivial)
  | getOrInsert | getOrInsertWith | getOrInsertDefault => exact Prog.On.eon.bind (fun _ => trivial)

theorem SetCall.conSet_on {m : Nat} (c : SetCall K T) : (c.conSet m).On m := by
  cases c with
  | isEmpty => exact Prog.On.isEmpty.bind (fun _ => trivial)
  | iter => exact Prog.On.iter.bind (fun _ => trivial)
  | extend l => exact (Prog.On.forEach (fun _ => Prog.On.opt) _).bind (fun _ => trivial)
  | insert | get | remove | contains => exact Prog.On.opt.bind (fun _ => trivial)

theorem nodup_of_keys {key : P → K} {l : List P} (h : (l.map key).Nodup) : l.Nodup := List.Nodup.of_map key h

theorem lastWith_map {Q : Type} {key : P → K} (g : Q → P) (l : List Q) (k : K) :
    lastWith key (l.map g) k = (l.filter (fun x => key (g x) = k)).getLast?.map g := by
  rw [lastWith, List.filter_map, List.getLast?_map]
  rfl

/-! ### What one call means -/

theorem MapCall.conMap_means [Inhabited V] {eqv : O → K} {m : Nat} {addr : Nat → Nat} {c : MapCall K O V} {A A' : Nat → AMap K (Arc O V)}
    {r : MapRet (Arc O V)} (h : (c.conMap eqv m addr).Means (ConMap.keyOf eqv) A r A') (hA : (A m).Keyed (ConMap.keyOf eqv)) :
    c.Spec eqv (fun n => Arc.mk (addr n)) (A m) r (A' m) ∧ ∀ m', m' ≠ m → A' m' = A m' := by
  cases c with
  | insert key v =>
    obtain ⟨y, B, e1, e2, e3⟩ := Prog.Means.of_optret h
    subst e3 e2
    simp only [AMap.apply, Prod.mk.injEq, Ret.opt.injEq] at e1
    refine ⟨⟨by rw [← e1.2]; rfl, by rw [upd_same, ← e1.1]; rfl⟩, fun m' hm => upd_other _ _ hm⟩
  | get k =>
    obtain ⟨y, B, e1, e2, e3⟩ := Prog.Means.of_optret h
    subst e3 e2
    simp only [AMap.apply, Prod.mk.injEq, Ret.opt.injEq] at e1
    refine ⟨⟨by rw [← e1.2], by rw [upd_same, ← e1.1]⟩, fun m' hm => upd_other _ _ hm⟩
  | remove k =>
    obtain ⟨y, B, e1, e2, e3⟩ := Prog.Means.of_optret h
    subst e3 e2
    simp only [AMap.apply, Prod.mk.injEq, Ret.opt.injEq] at e1
    refine ⟨⟨by rw [← e1.2], by rw [upd_same, ← e1.1]⟩, fun m' hm => upd_other _ _ hm⟩
  | getOrInsert | getOrInsertWith | getOrInsertDefault => exact Prog.Means.of_goi h
  | isEmpty =>
    obtain ⟨b, A1, h1, h2⟩ := h.bind
    obtain ⟨y, e1, e2, e3⟩ := h1.of_isEmpty
    obtain ⟨e4, e5⟩ := h2.of_ret
    subst e4 e5 e3 e2
    exact ⟨⟨rfl, _, rfl, e1⟩, fun _ _ => rfl⟩
  | iter =>
    obtain ⟨b, A1, h1, h2⟩ := h.bind
    obtain ⟨l, e1, e2, e3, e4⟩ := h1.of_iter
    obtain ⟨e5, e6⟩ := h2.of_ret
    subst e6 e4 e5 e3
    refine ⟨⟨rfl, _, rfl, nodup_of_keys e1, fun p => ?_⟩, fun _ _ => rfl⟩
    rw [e2]
    exact ⟨fun h => ⟨_, h⟩, fun ⟨k, h⟩ => by rw [hA k p h]; exact h⟩
  | extend l =>
    obtain ⟨b, A1, h1, h2⟩ := h.bind
    obtain ⟨e5, e6⟩ := h2.of_ret
    have := h1.of_inserts
    subst e6 e5
    rw [this]
    refine ⟨⟨rfl, fun k => ?_⟩, fun m' hm => upd_other _ _ hm⟩
    rw [upd_same, List.map_map, lastWith_map]
    show (Option.map _ (List.filter (fun x : (O × V) × Nat => decide (eqv x.1.1 = k)) l.zipIdx).getLast?).or (A m k) = _
    cases (List.filter (fun x : (O × V) × Nat => decide (eqv x.1.1 = k)) l.zipIdx).getLast? <;> rfl

theorem Prog.map_of_insert_pair {m : Nat} (l : List (O × V)) :
    Prog.forEach (fun x : O × V => CloneConMap.insert (K := K) m x.1 x.2) l = Prog.forEach (fun p => Prog.opt m (.insert p) (fun r => r)) l := by
  induction l with
  | nil => rfl
  | cons a l ih => simp only [Prog.forEach, ih]; rfl

theorem filter_zipIdx_last {Q : Type} (f : Q → Bool) (l : List Q) (n : Nat) :
    ((l.zipIdx n).filter (fun x => f x.1)).getLast?.map Prod.fst = (l.filter f).getLast? := by
  rw [← List.getLast?_map]
  congr 1
  induction l generalizing n with
  | nil => rfl
  | cons a l ih =>
    simp only [List.zipIdx_cons, List.filter_cons]
    cases f a <;> simp [ih]

theorem MapCall.cloneConMap_means [Inhabited V] {eqv : O → K} {m : Nat} {c : MapCall K O V} {A A' : Nat → AMap K (O × V)}
    {r : MapRet (O × V)} (h : (c.cloneConMap eqv m).Means (CloneConMap.keyOf eqv) A r A') (hA : (A m).Keyed (CloneConMap.keyOf eqv)) :
    c.Spec eqv (fun _ => Prod.mk) (A m) r (A' m) ∧ ∀ m', m' ≠ m → A' m' = A m' := by
  cases c with
  | insert key v =>
    obtain ⟨y, B, e1, e2, e3⟩ := Prog.Means.of_optret h
    subst e3 e2
    simp only [AMap.apply, Prod.mk.injEq, Ret.opt.injEq] at e1
    refine ⟨⟨by rw [← e1.2]; rfl, by rw [upd_same, ← e1.1]; rfl⟩, fun m' hm => upd_other _ _ hm⟩
  | get k =>
    obtain ⟨y, B, e1, e2, e3⟩ := Prog.Means.of_optret h
    subst e3 e2
    simp only [AMap.apply, Prod.mk.injEq, Ret.opt.injEq] at e1
    refine ⟨⟨by rw [← e1.2], by rw [upd_same, ← e1.1]⟩, fun m' hm => upd_other _ _ hm⟩
  | remove k =>
    obtain ⟨y, B, e1, e2, e3⟩ := Prog.Means.of_optret h
    subst e3 e2
    simp only [AMap.apply, Prod.mk.injEq, Ret.opt.injEq] at e1
    refine ⟨⟨by rw [← e1.2], by rw [upd_same, ← e1.1]⟩, fun m' hm => upd_other _ _ hm⟩
  | getOrInsert | getOrInsertWith | getOrInsertDefault => exact Prog.Means.of_goi h
  | isEmpty =>
    obtain ⟨b, A1, h1, h2⟩ := h.bind
    obtain ⟨y, e1, e2, e3⟩ := h1.of_isEmpty
    obtain ⟨e4, e5⟩ := h2.of_ret
    subst e4 e5 e3 e2
    exact ⟨⟨rfl, _, rfl, e1⟩, fun _ _ => rfl⟩
  | iter =>
    obtain ⟨b, A1, h1, h2⟩ := h.bind
    obtain ⟨l, e1, e2, e3, e4⟩ := h1.of_iter
    obtain ⟨e5, e6⟩ := h2.of_ret
    subst e6 e4 e5 e3
    refine ⟨⟨rfl, _, rfl, nodup_of_keys e1, fun p => ?_⟩, fun _ _ => rfl⟩
    rw [e2]
    exact ⟨fun h => ⟨_, h⟩, fun ⟨k, h⟩ => by rw [hA k p h]; exact h⟩
  | extend l =>
    obtain ⟨b, A1, h1, h2⟩ := h.bind
    obtain ⟨e5, e6⟩ := h2.of_ret
    rw [CloneConMap.extend, Prog.map_of_insert_pair] at h1
    have := h1.of_inserts
    subst e6 e5
    rw [this]
    refine ⟨⟨rfl, fun k => ?_⟩, fun m' hm => upd_other _ _ hm⟩
    rw [upd_same, lastWith]
    have := filter_zipIdx_last (fun x : O × V => decide (eqv x.1 = k)) l 0
    show ((List.filter (fun x : O × V => decide (eqv x.1 = k)) l).getLast?).or (A m k) = _
    rw [← this]
    cases (List.filter (fun x : (O × V) × Nat => decide (eqv x.1.1 = k)) l.zipIdx).getLast? <;> rfl

theorem SetCall.conSet_means {eqv : T → K} {m : Nat} {c : SetCall K T} {A A' : Nat → AMap K T} {r : MapRet T}
    (h : (c.conSet m).Means eqv A r A') (hA : (A m).Keyed eqv) :
    c.Spec eqv (fun v => A m (eqv v) = some v) r (fun v => A' m (eqv v) = some v) ∧ ∀ m', m' ≠ m → A' m' = A m' := by
  have hget : ∀ k u, A m k = some u ↔ A m (eqv u) = some u ∧ eqv u = k := by
    intro k u
    constructor
    · intro h; have := hA k u h; exact ⟨by rw [this]; exact h, this⟩
    · rintro ⟨h, rfl⟩; exact h
  cases c with
  | insert v =>
    obtain ⟨y, B, e1, e2, e3⟩ := Prog.Means.of_optret h
    subst e3 e2
    simp only [AMap.apply, Prod.mk.injEq, Ret.opt.injEq] at e1
    refine ⟨⟨⟨_, rfl, fun u => ?_⟩, fun u => ?_⟩, fun m' hm => upd_other _ _ hm⟩
    · rw [← e1.2]; exact hget _ _
    · rw [upd_same, ← e1.1]
      simp only [AMap.set]
      by_cases e : eqv u = eqv v
      · simp only [e, if_true, Option.some.injEq, ne_eq, not_true, and_false, or_false]
        exact ⟨fun h => h.symm, fun h => h.symm⟩
      · simp only [e, if_false, ne_eq, not_false_eq_true, and_true]
        exact ⟨Or.inr, fun h => h.elim (fun h => absurd (by rw [h]) e) id⟩
  | get k =>
    obtain ⟨y, B, e1, e2, e3⟩ := Prog.Means.of_optret h
    subst e3 e2
    simp only [AMap.apply, Prod.mk.injEq, Ret.opt.injEq] at e1
    refine ⟨⟨⟨_, rfl, fun u => ?_⟩, by rw [upd_same, ← e1.1]⟩, fun m' hm => upd_other _ _ hm⟩
    rw [← e1.2]; exact hget _ _
  | contains k =>
    obtain ⟨y, B, e1, e2, e3⟩ := Prog.Means.of_optret h
    subst e3 e2
    simp only [AMap.apply, Prod.mk.injEq, Ret.opt.injEq] at e1
    refine ⟨⟨⟨_, rfl, ?_⟩, by rw [upd_same, ← e1.1]⟩, fun m' hm => upd_other _ _ hm⟩
    rw [← e1.2, Option.isSome_iff_exists]
    exact exists_congr (fun u => hget k u)
  | remove k =>
    obtain ⟨y, B, e1, e2, e3⟩ := Prog.Means.of_optret h
    subst e3 e2
    simp only [AMap.apply, Prod.mk.injEq, Ret.opt.injEq] at e1
    refine ⟨⟨⟨_, rfl, fun u => ?_⟩, fun u => ?_⟩, fun m' hm => upd_other _ _ hm⟩
    · rw [← e1.2]; exact hget _ _
    · rw [upd_same, ← e1.1]
      simp only [AMap.set]
      by_cases e : eqv u = k
      · simp [e]
      · simp [e]
  | isEmpty =>
    obtain ⟨b, A1, h1, h2⟩ := h.bind
    obtain ⟨y, e1, e2, e3⟩ := h1.of_isEmpty
    obtain ⟨e4, e5⟩ := h2.of_ret
    subst e4 e5 e3 e2
    refine ⟨⟨⟨_, rfl, e1.trans ?_⟩, rfl⟩, fun _ _ => rfl⟩
    constructor
    · intro h u e; have e : A' m (eqv u) = some u := e; rw [h] at e; cases e
    · intro h k
      cases hk : A' m k with
      | none => rfl
      | some u => exact absurd ((hget k u).1 hk).1 (h u)
  | iter =>
    obtain ⟨b, A1, h1, h2⟩ := h.bind
    obtain ⟨l, e1, e2, e3, e4⟩ := h1.of_iter
    obtain ⟨e5, e6⟩ := h2.of_ret
    subst e6 e4 e5 e3
    exact ⟨⟨⟨_, rfl, nodup_of_keys e1, e2⟩, rfl⟩, fun _ _ => rfl⟩
  | extend l =>
    obtain ⟨b, A1, h1, h2⟩ := h.bind
    obtain ⟨e5, e6⟩ := h2.of_ret
    have := h1.of_inserts
    subst e6 e5
    rw [this]
    refine ⟨⟨rfl, fun u => ?_⟩, fun m' hm => upd_other _ _ hm⟩
    rw [upd_same]
    show (lastWith eqv l (eqv u)).or (A m (eqv u)) = some u ↔ _
    cases hl : lastWith eqv l (eqv u) with
    | none =>
      have := lastWith_none.1 hl
      simp only [Option.none_or]
      exact ⟨fun h => Or.inr ⟨h, this⟩, fun h => h.elim (fun h => by cases h) (fun h => h.1)⟩
    | some v =>
      have := lastWith_some hl
      simp only [Option.some_or]
      exact ⟨fun h => Or.inl h, fun h => h.elim id (fun h => absurd this.2 (h.2 v this.1))⟩

theorem Answers_fits {key : P → K} {A A' : AMap K P} {r : Req K P} {x : Res P} (h : A.Answers key r x A') : x.Fits r := by
  cases r with
  | op o =>
    cases x with
    | op y =>
      simp only [AMap.Answers] at h
      cases o <;> simp only [AMap.apply] at h
      · cases h; trivial
      · cases h; trivial
      · split at h <;> cases h <;> trivial
      · cases h; trivial
    | bool b => exact h.elim
    | list l => exact h.elim
  | isEmpty => cases x <;> first | exact h.elim | trivial
  | iter => cases x <;> first | exact h.elim | trivial

theorem Prog.Means.keyed {key : P → K} {A A' : Nat → AMap K P} {p : Prog K P α} {a : α} (h : p.Means key A a A') (ht : p.Typed key)
    (hA : ∀ m, (A m).Keyed key) : ∀ m, (A' m).Keyed key := by
  induction h with
  | ret => exact hA
  | @call A A' A1 m r x k a h hk ih =>
    refine ih (ht.2 x (Answers_fits h)) ?_
    intro m'
    by_cases e : m' = m
    · subst e
      rw [upd_same]
      cases r with
      | op o =>
        cases x with
        | op y => exact apply_keyed (hA m') ht.1 h
        | bool b => exact h.elim
        | list l => exact h.elim
      | isEmpty => cases x <;> first | exact h.elim | (rw [h.1]; exact hA m')
      | iter => cases x <;> first | exact h.elim | (rw [h.1]; exact hA m')
    · rw [upd_other _ _ e]; exact hA m'

/-- Sequences of calls. -/
theorem Prog.Means.seq {C S : Type} {key : P → K} (prog : C → Prog K P β) (spec : S → C → β → S → Prop) (abs : (Nat → AMap K P) → S)
    (keep : (Nat → AMap K P) → (Nat → AMap K P) → Prop) (hk0 : ∀ A, keep A A) (hk : ∀ A B C, keep A B → keep B C → keep A C)
    (hty : ∀ c, (prog c).Typed key)
    (h1 : ∀ A c r A', (∀ m, (A m).Keyed key) → (prog c).Means key A r A' → spec (abs A) c r (abs A') ∧ keep A A') (cs : List C)
    {A A' : Nat → AMap K P} {rs : List β} (h : (Prog.all (cs.map prog)).Means key A rs A') (hA : ∀ m, (A m).Keyed key) :
    SpecSeq spec (abs A) cs rs (abs A') ∧ keep A A' := by
  induction cs generalizing A rs with
  | nil =>
    obtain ⟨e1, e2⟩ := h.of_ret
    subst e1 e2
    exact ⟨.nil _, hk0 _⟩
  | cons c cs ih =>
    obtain ⟨r, A1, g1, g2⟩ := Prog.Means.bind h
    obtain ⟨rs', A2, g3, g4⟩ := g2.bind
    obtain ⟨e1, e2⟩ := g4.of_ret
    subst e1 e2
    obtain ⟨k1, k2⟩ := h1 _ _ _ _ hA g1
    obtain ⟨k3, k4⟩ := ih g3 (g1.keyed (hty c) hA)
    exact ⟨.cons k1 k3, hk _ _ _ k2 k4⟩

/-! ### C29: the maps -/

/-- **C29** for `ConMap`: any sequence of calls by a session that is not disturbed by updates of others (others may read) behaves like a plain map from keys
to handles. Updates of others that were stopped half-way do no harm, but for `is_empty`: for its results removals must not have overlapped in the history of the
map (see C17), and no update of others may be unfinished. -/
theorem C29_conmap [Inhabited V] {eqv : O → K} (W : World (ConMap.keyOf (V := V) eqv)) {t i j m : Nat} (cs : List ((Nat → Nat) × MapCall K O V))
    {rs : List (MapRet (Arc O V))} (h : W.Runs t (Prog.all (cs.map (fun c => c.2.conMap eqv m c.1))) i j rs) (hu : W.Undisturbed m t i j)
    (hempty : (∃ addr, (addr, .isEmpty) ∈ cs) → (W.ex m).RemovalsAlone j ∧ W.NoneElse m t i j) :
    SpecSeq (fun M c r M' => c.2.Spec eqv (fun n => Arc.mk (c.1 n)) M r M') (W.content i m) cs rs (W.content j m) := by
  obtain ⟨A, A', hm, e1, e2, hA⟩ := h.means_on (m := m) (Prog.On.all (fun p hp => by obtain ⟨c, -, rfl⟩ := List.mem_map.1 hp; exact c.2.conMap_on)) hu (by
    intro ha
    obtain ⟨p, hp, ha⟩ := ha.all
    obtain ⟨c, hc, rfl⟩ := List.mem_map.1 hp
    have := MapCall.conMap_asks ha
    exact hempty ⟨c.1, by rw [← this]; exact hc⟩)
  rw [← e1, ← e2]
  refine (Prog.Means.seq (fun c : (Nat → Nat) × MapCall K O V => c.2.conMap eqv m c.1) (fun M c r M' => c.2.Spec eqv (fun n => Arc.mk (c.1 n)) M r M')
    (fun A => A m) (fun A A' => ∀ m', m' ≠ m → A' m' = A m') (fun A m' _ => rfl) (fun A B C h1 h2 m' hm => by rw [h2 m' hm, h1 m' hm])
    (fun c => c.2.conMap_typed) (fun A c r A' hA h => MapCall.conMap_means h (hA m)) cs hm hA).1

/-- **C29** for `CloneConMap`. -/
theorem C29_cloneconmap [Inhabited V] {eqv : O → K} (W : World (CloneConMap.keyOf (V := V) eqv)) {t i j m : Nat} (cs : List (MapCall K O V))
    {rs : List (MapRet (O × V))} (h : W.Runs t (Prog.all (cs.map (fun c => c.cloneConMap eqv m))) i j rs) (hu : W.Undisturbed m t i j)
    (hempty : .isEmpty ∈ cs → (W.ex m).RemovalsAlone j ∧ W.NoneElse m t i j) :
    SpecSeq (fun M c r M' => c.Spec eqv (fun _ => Prod.mk) M r M') (W.content i m) cs rs (W.content j m) := by
  obtain ⟨A, A', hm, e1, e2, hA⟩ := h.means_on (m := m) (Prog.On.all (fun p hp => by obtain ⟨c, -, rfl⟩ := List.mem_map.1 hp; exact c.cloneConMap_on)) hu (by
    intro ha
    obtain ⟨p, hp, ha⟩ := ha.all
    obtain ⟨c, hc, rfl⟩ := List.mem_map.1 hp
    have := MapCall.cloneConMap_asks ha
    exact hempty (by rw [← this]; exact hc))
  rw [← e1, ← e2]
  refine (Prog.Means.seq (fun c : MapCall K O V => c.cloneConMap eqv m) (fun M c r M' => c.Spec eqv (fun _ => Prod.mk) M r M')
    (fun A => A m) (fun A A' => ∀ m', m' ≠ m → A' m' = A m') (fun A m' _ => rfl) (fun A B C h1 h2 m' hm => by rw [h2 m' hm, h1 m' hm])
    (fun c => c.cloneConMap_typed) (fun A c r A' hA h => MapCall.cloneConMap_means h (hA m)) cs hm hA).1

/-- The content of an element, without the handle. -/
def Arc.erase (e : Arc O V) : O × V := (e.key, e.val)

/-- Results that are the same up to the `Arc` (and the order in which an iteration yields the elements). -/
def MapRet.Agree : MapRet (Arc O V) → MapRet (O × V) → Prop
  | .opt r, .opt r' => r.map Arc.erase = r'
  | .eon r, .eon r' => r.map Arc.erase = r'
  | .bool b, .bool b' => b = b'
  | .list l, .list l' => (l.map Arc.erase).Perm l'
  | .unit, .unit => True
  | _, _ => False

theorem AMap.set_map {Q : Type} (g : P → Q) (M : K → Option P) (k : K) (p : Option P) :
    (fun x => (AMap.set M k p x).map g) = AMap.set (fun x => (M x).map g) k (p.map g) := by
  funext x
  simp only [AMap.set]
  split <;> rfl

theorem goi_agree {M M1 : K → Option (Arc O V)} {M1' : K → Option (O × V)} {k : K} {p : Arc O V} {r : MapRet (Arc O V)} {r' : MapRet (O × V)}
    (h : GetOrInsertSpec M k p r M1) (h' : GetOrInsertSpec (fun k => (M k).map Arc.erase) k p.erase r' M1') :
    r.Agree r' ∧ M1' = fun k => (M1 k).map Arc.erase := by
  simp only [GetOrInsertSpec] at h h'
  cases hk : M k with
  | none =>
    rw [hk] at h h'
    obtain ⟨rfl, rfl⟩ := h
    obtain ⟨rfl, rfl⟩ := h'
    exact ⟨rfl, (AMap.set_map Arc.erase M k (some p)).symm⟩
  | some e =>
    rw [hk] at h h'
    obtain ⟨rfl, rfl⟩ := h
    obtain ⟨rfl, rfl⟩ := h'
    exact ⟨rfl, rfl⟩

theorem MapCall.Spec.agree [Inhabited V] {eqv : O → K} {addr : Nat → Nat} {c : MapCall K O V} {M M1 : K → Option (Arc O V)} {M1' : K → Option (O × V)}
    {r : MapRet (Arc O V)} {r' : MapRet (O × V)} (hM : AMap.Keyed (ConMap.keyOf eqv) M) (h : c.Spec eqv (fun n => Arc.mk (addr n)) M r M1)
    (h' : c.Spec eqv (fun _ => Prod.mk) (fun k => (M k).map Arc.erase) r' M1') :
    r.Agree r' ∧ M1' = fun k => (M1 k).map Arc.erase := by
  cases c with
  | insert key v =>
    obtain ⟨rfl, rfl⟩ := h
    obtain ⟨rfl, rfl⟩ := h'
    exact ⟨rfl, (AMap.set_map Arc.erase M (eqv key) (some ⟨addr 0, key, v⟩)).symm⟩
  | getOrInsert | getOrInsertWith | getOrInsertDefault => exact goi_agree h h'
  | get k =>
    obtain ⟨rfl, rfl⟩ := h
    obtain ⟨rfl, rfl⟩ := h'
    exact ⟨rfl, rfl⟩
  | remove k =>
    obtain ⟨rfl, rfl⟩ := h
    obtain ⟨rfl, rfl⟩ := h'
    exact ⟨rfl, (AMap.set_map Arc.erase M k none).symm⟩
  | isEmpty =>
    obtain ⟨rfl, b, rfl, hb⟩ := h
    obtain ⟨rfl, b', rfl, hb'⟩ := h'
    refine ⟨?_, rfl⟩
    simp only [MapRet.Agree]
    rw [Bool.eq_iff_iff, hb, hb']
    simp
  | iter =>
    obtain ⟨rfl, l, rfl, hl, hm⟩ := h
    obtain ⟨rfl, l', rfl, hl', hm'⟩ := h'
    refine ⟨?_, rfl⟩
    simp only [MapRet.Agree]
    refine (List.perm_ext_iff_of_nodup ?_ hl').2 ?_
    · refine (List.nodup_map_iff_inj_on hl).2 ?_
      intro x hx y hy e
      obtain ⟨k, hk⟩ := (hm x).1 hx
      obtain ⟨k', hk'⟩ := (hm y).1 hy
      have e1 : x.key = y.key := congrArg Prod.fst e
      have : k = k' := by rw [← hM k x hk, ← hM k' y hk']; simp only [ConMap.keyOf, e1]
      subst this
      rw [hk] at hk'; cases hk'; rfl
    · intro p
      rw [hm', List.mem_map]
      constructor
      · rintro ⟨x, hx, rfl⟩
        obtain ⟨k, hk⟩ := (hm x).1 hx
        exact ⟨k, by show Option.map Arc.erase (M1 k) = _; rw [hk]; rfl⟩
      · rintro ⟨k, hk⟩
        obtain ⟨x, hx, e⟩ := Option.map_eq_some_iff.1 hk
        exact ⟨x, (hm x).2 ⟨k, hx⟩, e⟩
  | extend l =>
    obtain ⟨rfl, h⟩ := h
    obtain ⟨rfl, h'⟩ := h'
    refine ⟨trivial, ?_⟩
    funext k
    rw [h', h]
    split <;> rfl

theorem MapCall.Spec.keyed [Inhabited V] {eqv : O → K} {mk : Nat → O → V → P} {key : P → K} (hmk : ∀ n o v, key (mk n o v) = eqv o)
    {c : MapCall K O V} {M M1 : K → Option P} {r : MapRet P} (h : c.Spec eqv mk M r M1) (hM : AMap.Keyed key M) : AMap.Keyed key M1 := by
  have goi : ∀ k o v, eqv o = k → GetOrInsertSpec M k (mk 0 o v) r M1 → AMap.Keyed key M1 := by
    intro k o v e h
    simp only [GetOrInsertSpec] at h
    split at h
    · rw [h.2]; exact hM
    · rw [h.2]; exact AMap.Keyed.set hM (by intro q e'; cases e'; rw [hmk, e])
  cases c with
  | insert o v => rw [h.2]; exact AMap.Keyed.set hM (by intro q e; cases e; exact hmk _ _ _)
  | getOrInsert o v => exact goi _ _ _ rfl h
  | getOrInsertWith o f => exact goi _ _ _ rfl h
  | getOrInsertDefault o => exact goi _ _ _ rfl h
  | get k => rw [h.2]; exact hM
  | remove k => rw [h.2]; exact AMap.Keyed.set hM (by intro q e; cases e)
  | isEmpty => rw [h.1]; exact hM
  | iter => rw [h.1]; exact hM
  | extend l =>
    intro k p e
    rw [h.2 k] at e
    split at e
    · rename_i x hx
      cases e
      rw [hmk]
      have := List.mem_of_getLast? hx
      simpa using (List.mem_filter.1 this).2
    · exact hM k p e

/-- **C29**, agreement: the same sequence of calls on a `ConMap` and on a `CloneConMap` with the same content gives the same results up to the `Arc`s (and the
order of iteration), and the same content afterwards - whatever the hash functions of the two maps, the addresses chosen by `Arc::new` and what readers do
meanwhile. -/
theorem C29_agree [Inhabited V] {eqv : O → K} (W : World (ConMap.keyOf (V := V) eqv)) (W' : World (CloneConMap.keyOf (V := V) eqv)) {t i j m t' i' j' m' : Nat}
    (cs : List ((Nat → Nat) × MapCall K O V)) {rs : List (MapRet (Arc O V))} {rs' : List (MapRet (O × V))}
    (h : W.Runs t (Prog.all (cs.map (fun c => c.2.conMap eqv m c.1))) i j rs) (hu : W.Undisturbed m t i j)
    (h' : W'.Runs t' (Prog.all ((cs.map Prod.snd).map (fun c => c.cloneConMap eqv m'))) i' j' rs') (hu' : W'.Undisturbed m' t' i' j')
    (hempty : (∃ addr, (addr, .isEmpty) ∈ cs) → ((W.ex m).RemovalsAlone j ∧ W.NoneElse m t i j) ∧ (W'.ex m').RemovalsAlone j' ∧ W'.NoneElse m' t' i' j')
    (hsame : W'.content i' m' = fun k => (W.content i m k).map Arc.erase) :
    List.Forall₂ MapRet.Agree rs rs' ∧ W'.content j' m' = fun k => (W.content j m k).map Arc.erase := by
  have h1 := C29_conmap W cs h hu (fun e => (hempty e).1)
  have h2 := C29_cloneconmap W' (cs.map Prod.snd) h' hu' (fun e => by
    obtain ⟨c, hc, e⟩ := List.mem_map.1 e
    exact (hempty ⟨c.1, by rw [← e]; exact hc⟩).2)
  have hk := W.keyed i m
  rw [hsame] at h2
  clear hempty hu hu' h h' hsame
  generalize W.content i m = M at h1 h2 hk
  generalize W.content j m = M1 at h1 ⊢
  generalize W'.content j' m' = M1' at h2 ⊢
  induction h1 generalizing rs' with
  | nil M => cases h2; exact ⟨.nil, rfl⟩
  | @cons M N M' c r cs rs hc hs ih =>
    cases h2 with
    | cons hc' hs' =>
      obtain ⟨a1, a2⟩ := MapCall.Spec.agree hk hc hc'
      subst a2
      obtain ⟨b1, b2⟩ := ih (MapCall.Spec.keyed (key := ConMap.keyOf eqv) (mk := fun n => Arc.mk (c.1 n)) (fun _ _ _ => rfl) hc hk) hs'
      exact ⟨.cons a1 b1, b2⟩

/-! ### C28: the set -/

/-- **C28**: any sequence of calls of `ConSet` by a session that is not disturbed by updates of others behaves like a set of values up to equality. -/
theorem C28_set {eqv : T → K} (W : World eqv) {t i j m : Nat} (cs : List (SetCall K T)) {rs : List (MapRet T)}
    (h : W.Runs t (Prog.all (cs.map (SetCall.conSet m))) i j rs) (hu : W.Undisturbed m t i j)
    (hempty : .isEmpty ∈ cs → (W.ex m).RemovalsAlone j ∧ W.NoneElse m t i j) :
    SpecSeq (fun S c r S' => c.Spec eqv S r S') (fun v => W.content i m (eqv v) = some v) cs rs (fun v => W.content j m (eqv v) = some v) := by
  obtain ⟨A, A', hm, e1, e2, hA⟩ := h.means_on (m := m) (Prog.On.all (fun p hp => by obtain ⟨c, -, rfl⟩ := List.mem_map.1 hp; exact c.conSet_on)) hu (by
    intro ha
    obtain ⟨p, hp, ha⟩ := ha.all
    obtain ⟨c, hc, rfl⟩ := List.mem_map.1 hp
    have := SetCall.conSet_asks ha
    exact hempty (by rw [← this]; exact hc))
  rw [← e1, ← e2]
  refine (Prog.Means.seq (SetCall.conSet m) (fun S c r S' => c.Spec eqv S r S') (fun A v => A m (eqv v) = some v)
    (fun A A' => ∀ m', m' ≠ m → A' m' = A m') (fun A m' _ => rfl) (fun A B C h1 h2 m' hm => by rw [h2 m' hm, h1 m' hm])
    (fun c => c.conSet_typed) (fun A c r A' hA h => SetCall.conSet_means h (hA m)) cs hm hA).1

/-- The set holds at most one of several equal values. -/
theorem C28_one_of_equals {eqv : T → K} (W : World eqv) {i m : Nat} {u v : T} (hu : W.content i m (eqv u) = some u) (hv : W.content i m (eqv v) = some v)
    (h : eqv u = eqv v) : u = v := by
  rw [h, hv] at hu; cases hu; rfl

end Contrie
