import Verif.Proof.Lifetimes
import Verif.Props.Handles
/-
C68: the lifetimes in the signatures are what it takes. `Life`, `Accepted`, `Safe` and the signatures `codeSigs`: `Verif/Model/Lifetimes.lean`.
-/
set_option linter.unusedSectionVars false
namespace Contrie
variable {K P : Type}

section
variable [DecidableEq K]

/-- The node a returned reference points into. -/
theorem WExec.returned_node (E : WExec K P) {j id t : Nat} {r : Res P} {weak : Bool} {τ : Nat} (hj : j < E.len) (hr : E.ev j = some (.res id r))
    (hl : E.lab j = .tick t weak τ) {c : Call K P} (hc : ((E.st j).thr t).run = some c) {p : P} (hp : p ∈ r.refers) : ∃ a items, p ∈ items ∧
      (∀ n, j < n → n ≤ E.len → E.KeepsGuard t j n → (E.st n).m.deref a = some (.data items)) ∧
      (c.req.fn = some .insert ∨ c.req.fn = some .remove → (E.st (j + 1)).m.retired a ≠ none) := by
  have hI := E.winv (Nat.le_of_lt hj)
  have hs := E.step j hj
  rw [hl] at hs
  simp only [wstep, hc, Option.some.injEq, Prod.mk.injEq] at hs
  obtain ⟨hs1, hs2⟩ := hs
  have ci := (hI.sess t).run c hc
  have d := (hI.did E hj hl hc).1
  have sc := d.step hI ci hj
  rw [hr] at hs2
  have hrr := E.returned_retired hj hl hc
  generalize hnx : (hTick (E.ans j) ((E.st j).seen c.pc τ) weak c.pc).2 = nx at d sc hs1 hs2
  cases nx with
  | goto pc ran => cases hs2
  | fail f => cases hs2
  | ret r' refs =>
    simp only [Next.event, Option.some.injEq, Event.res.injEq] at hs2
    obtain ⟨-, rfl⟩ := hs2
    obtain ⟨q, hq1, hq2⟩ := ci.pin
    have hpin : ((E.st (j + 1)).thr t).pin = some q := by
      rw [← hs1]; simp only [CState.next, upd_same]; exact hq1
    obtain ⟨hheld, hok⟩ := sc.next
    have hlt := ci.lt
    cases r' with
    | op ret =>
      have hp' : p ∈ ret.payloads := by
        cases ret with
        | opt v => exact hp
        | eon e => cases e <;> simpa [Res.refers, Ret.payloads, ExistingOrNew.intoInner] using hp
      obtain ⟨a, ha, items, h1, h2⟩ := hok p hp'
      refine ⟨a, items, h2, fun n hjn hn hk => ?_, fun hf => hrr hf hnx a ha⟩
      refine E.seen_valid hpin ((d.refs ci sc.hist hj rfl (fun b hb => (hheld b hb).1) ha).anti (E.V_mono t (by omega) (by omega))) h1 n hjn hn ?_
      intro k h4 h5
      rw [hk k (by omega) h5, hpin, hq1]
    | bool b => cases hp
    | list l => cases hp

theorem reads_holds {pc : PC K P} {a : Nat} (h : pc.reads = some a) : pc.Holds a := by
  cases pc with
  | iterNext lv out =>
    cases lv with
    | nil => cases h
    | cons x lv => exact ⟨x, List.mem_cons_self, h⟩
  | get key hash cur => cases cur <;> simp_all [PC.reads, PC.access, PC.Holds, Loc.node]
  | isEmpty => cases h
  | iterNew => cases h
  | trav st hash mode shift cur parent => cases cur <;> simp_all [PC.reads, PC.access, PC.Holds, Loc.node]
  | travCas st hash mode shift cur parent node new kind => cases cur <;> simp_all [PC.reads, PC.access, PC.Holds, Loc.node]
  | rem key shift cur levels => cases cur <;> simp_all [PC.reads, PC.access, PC.Holds, Loc.node]
  | remCas key shift cur levels node new deleted => cases cur <;> simp_all [PC.reads, PC.access, PC.Holds, Loc.node]
  | count d ref p c rest i cnt => cases hx : c.ptr <;> simp_all [PC.reads, PC.access, PC.Holds]
  | prune p c i acc k => cases hx : c.ptr <;> simp_all [PC.reads, PC.access, PC.Holds]
  | pruneCas p c acc k => cases p <;> simp_all [PC.reads, PC.access, PC.Holds, Loc.node]

/-- **C68.** If the signatures say enough, nothing is accessed after its memory was given back, in any program the compiler accepts: whatever threads, calls, schedules, weak memory and user code do, whenever guards,
iterators and the map are dropped. -/
theorem C68_enough {sigs : Fn → Sig} (hs : Enough sigs) (L : Life K P) (ha : L.Accepted sigs) : L.Safe := by
  constructor
  · intro n r hu
    obtain ⟨hbn, hn, ⟨hb, c, hc, hf, hout⟩, hmap, hguard⟩ := ha.uses n r hu
    have gone : ∀ {a items}, (L.E.st n).m.deref a = some (.data items) → L.MapAlive n → (L.E.st n).m.mem a = some (.data items) ∧ ¬ L.Gone n a := by
      intro a items hd hm
      simp only [Mem.deref] at hd
      split at hd
      · cases hd
      · next hfr =>
        refine ⟨hd, ?_⟩
        rintro (h | ⟨d, m, l, h1, h2, -⟩)
        · rw [h] at hfr; simp at hfr
        · have := hm d h1; omega
    have ops : r.fn ≠ .iterNext → r.fn ≠ .iterNew → ∃ weak τ res, L.E.lab r.born = .tick r.t weak τ ∧ L.E.ev r.born = some (.res c.inv res) ∧ r.elem ∈ res.refers := by
      intro h1 h2
      cases hx : r.fn <;> rw [hx] at hout h1 h2 <;> first | exact hout | exact absurd rfl h1 | exact absurd rfl h2
    have viaMap : r.fn ≠ .iterNext → r.fn ≠ .iterNew → Keeps sigs r.fn .map → Keeps sigs r.fn r.fn.holder →
        ∃ a items, r.elem ∈ items ∧ (L.E.st (r.born + 1)).m.deref a = some (.data items) ∧ (L.E.st n).m.mem a = some (.data items) ∧ ¬ L.Gone n a := by
      intro h1 h2 h3 h4
      obtain ⟨weak, τ, res, g1, g2, g3⟩ := ops h1 h2
      obtain ⟨a, items, g4, g5, -⟩ := L.E.returned_node hb g2 g1 hc g3
      have hk := hguard h4
      exact ⟨a, items, g4, g5 _ (Nat.lt_succ_self _) (by omega) (fun k k1 k2 => hk k k1 (by omega)), gone (g5 n hbn hn hk) (hmap h3)⟩
    have viaRet : (c.req.fn = some .insert ∨ c.req.fn = some .remove) → r.fn ≠ .iterNext → r.fn ≠ .iterNew → Keeps sigs r.fn r.fn.holder →
        ∃ a items, r.elem ∈ items ∧ (L.E.st (r.born + 1)).m.deref a = some (.data items) ∧ (L.E.st n).m.mem a = some (.data items) ∧ ¬ L.Gone n a := by
      intro h0 h1 h2 h4
      obtain ⟨weak, τ, res, g1, g2, g3⟩ := ops h1 h2
      obtain ⟨a, items, g4, g5, g6⟩ := L.E.returned_node hb g2 g1 hc g3
      have hk := hguard h4
      have hd := g5 n hbn hn hk
      refine ⟨a, items, g4, g5 _ (Nat.lt_succ_self _) (by omega) (fun k k1 k2 => hk k k1 (by omega)), ?_⟩
      have hni : ∀ lv out, c.pc ≠ .iterNext lv out := by
        intro lv out e
        rcases h0 with h0 | h0
        · have := L.E.ofInsert (Nat.le_of_lt hb) hc h0; rw [e] at this; exact this
        · have := L.E.ofRemove (Nat.le_of_lt hb) hc h0; rw [e] at this; exact this
      have hm := ha.steps r.born r.t weak τ c hb g1 hc (.inl hni)
      simp only [Mem.deref] at hd
      split at hd
      · cases hd
      · next hfr =>
        refine ⟨hd, ?_⟩
        rintro (h | ⟨d, m, l, k1, k2, k3, k4⟩)
        · rw [h] at hfr; simp at hfr
        · have h5 := hm d k1
          have h6 : d ≠ r.born := by
            intro e
            have := L.dropStep d k1
            rw [e, g1] at this; cases this
          have hdl : d ≤ L.E.len := by omega
          obtain ⟨m', l', k5, -, k6, k7⟩ := C43_drop L.E L.fix hdl
          rw [k3] at k5
          simp only [Option.some.injEq, Prod.mk.injEq] at k5
          obtain ⟨rfl, rfl⟩ := k5
          have k8 := (k6 a (k7 a k4).1).1 k4
          cases hx : (L.E.st (r.born + 1)).m.retired a with
          | none => exact g6 h0 hx
          | some v =>
            have k9 := (L.E.winv hdl).hist.retired (show r.born + 1 ≤ d by omega) (Nat.le_refl _) (a := a) (τ := v) hx
            have k10 : (L.E.st d).m.retired a = some v := k9
            rw [k8] at k10; cases k10
    have hfn : ∀ f, r.fn = f → c.req.fn = some f := fun f e => by rw [hf, e]
    cases hx : r.fn with
    | get => exact viaMap (by rw [hx]; simp) (by rw [hx]; simp) (by rw [hx]; exact hs.get.1) (by rw [hx]; exact hs.get.2)
    | getOrInsertWith => exact viaMap (by rw [hx]; simp) (by rw [hx]; simp) (by rw [hx]; exact hs.getOrInsertWith.1) (by rw [hx]; exact hs.getOrInsertWith.2)
    | insert => exact viaRet (.inl (hfn _ hx)) (by rw [hx]; simp) (by rw [hx]; simp) (by rw [hx]; exact hs.insert)
    | remove => exact viaRet (.inr (hfn _ hx)) (by rw [hx]; simp) (by rw [hx]; simp) (by rw [hx]; exact hs.remove)
    | iterNew =>
      have := hfn _ hx
      cases hr : c.req with
      | op o => rw [hr] at this; cases o <;> cases this
      | isEmpty => rw [hr] at this; cases this
      | iter => rw [hr] at this; cases this
    | iterNext =>
      rw [hx] at hout hmap hguard
      have hk := hguard hs.iterNext.2
      have hy : r.elem ∈ c.yielded := by
        simp only [PC.handed] at hout
        simp only [Call.yielded]
        split at hout
        · next lv out e => simp only [e]; exact hout
        · cases hout
      obtain ⟨a, items, g1, g2⟩ := C43_yielded_references L.E (Nat.le_of_lt hb) hc hy
      exact ⟨a, items, g1, g2 _ (Nat.le_succ _) (by omega) (fun k k1 k2 => hk k k1 (by omega)), gone (g2 n (by omega) hn hk) (hmap hs.iterNext.1)⟩
  · intro n t weak τ c hn hl hc
    have hm := ha.steps n t weak τ c hn hl hc (.inr hs.iterNew)
    refine ⟨fun a hr => ?_, fun _ => hm⟩
    have hI := L.E.winv (Nat.le_of_lt hn)
    have hf := hI.held L.E (Nat.le_of_lt hn) hc (((hI.sess t).run c hc).holds a (reads_holds hr))
    rintro (h | ⟨d, m, l, h1, h2, -⟩)
    · rw [h] at hf; cases hf
    · have := hm d h1; omega

/-- **C68.** The signatures of the code say enough. -/
theorem C68_code : Enough codeSigs := by
  have s : ∀ {b : List (Lt × Lt)} {l l' : Lt}, (l, l') ∈ b → Outlives b l l' := fun h => .step h (.refl _)
  refine ⟨⟨⟨.s, by decide, s (by decide)⟩, ⟨.p, by decide, .step (l' := .s) (by decide) (s (by decide))⟩⟩,
    ⟨⟨.s, by decide, s (by decide)⟩, ⟨.p, by decide, s (by decide)⟩⟩, ⟨.p, by decide, s (by decide)⟩, ⟨.p, by decide, s (by decide)⟩,
    ⟨.m, by decide, s (by decide)⟩, ⟨⟨⟨.a, by decide, s (by decide)⟩, ⟨.m, by decide, s (by decide)⟩⟩, ⟨.x, by decide, .refl _⟩⟩⟩

/-- **C68.** So programs that use the map through its signatures are safe. -/
theorem C68_safe (L : Life K P) (ha : L.Accepted codeSigs) : L.Safe := C68_enough C68_code L ha

end

/-! ### Nothing less will do -/

/-- Check that a reference was handed out in a concrete execution. -/
def handedb (E : WExec Nat (Nat × Nat)) (r : Ref (Nat × Nat)) : Bool :=
  decide (r.born < E.len) && match ((E.st r.born).thr r.t).run with
    | none => false
    | some c => decide (c.req.fn = some r.fn) && (match r.fn with
      | .iterNext => decide (r.elem ∈ c.pc.handed)
      | _ => match E.lab r.born, E.ev r.born with
        | .tick t _ _, some (.res id res) => decide (t = r.t) && decide (id = c.inv) && decide (r.elem ∈ res.refers)
        | _, _ => false)

theorem handed_of {E : WExec Nat (Nat × Nat)} {r : Ref (Nat × Nat)} (h : handedb E r = true) : E.HandedOut r := by
  simp only [handedb, Bool.and_eq_true, decide_eq_true_eq] at h
  obtain ⟨h1, h2⟩ := h
  split at h2
  · cases h2
  · next c hc =>
    simp only [Bool.and_eq_true, decide_eq_true_eq] at h2
    obtain ⟨h3, h4⟩ := h2
    refine ⟨h1, c, hc, h3, ?_⟩
    have aux : ∀ {b : Bool}, (match E.lab r.born, E.ev r.born with
        | .tick t _ _, some (.res id res) => decide (t = r.t) && decide (id = c.inv) && decide (r.elem ∈ res.refers)
        | _, _ => false) = b → b = true →
        ∃ weak τ res, E.lab r.born = .tick r.t weak τ ∧ E.ev r.born = some (.res c.inv res) ∧ r.elem ∈ res.refers := by
      intro b hb hb'
      rw [hb'] at hb
      split at hb
      · next t weak τ id res e1 e2 =>
        simp only [Bool.and_eq_true, decide_eq_true_eq] at hb
        obtain ⟨⟨rfl, rfl⟩, h7⟩ := hb
        exact ⟨_, _, _, e1, e2, h7⟩
      · cases hb
    cases hf : r.fn with
    | iterNext => rw [hf] at h4; simpa using h4
    | _ => rw [hf] at h4; exact aux rfl h4

/-- A reference is used once; the map is dropped in step `d`, if at all. -/
def oneUse (E : WExec Nat (Nat × Nat)) (fix : Bool) (dropped : Option Nat) (hd : ∀ d, dropped = some d → E.lab d = .idle) (n : Nat) (r : Ref (Nat × Nat)) :
    Life Nat (Nat × Nat) := ⟨E, fix, dropped, fun n' r' => n' = n ∧ r' = r, hd⟩

/-- Session 0 inserts the keys 1 and 2 (there is a split), looks 1 up with `get` and with `get_or_insert_with`; an iterator, session 1, hands 1 out. Nothing happens in step 23. -/
def exBorrowRun : List (WLabel Nat (Nat × Nat)) :=
  [(.pin 0, steady 1, 0), (.call 0 (.op (.insert (1, 0))), steady 1, 1), (.tick 0 false 2, steady 1, 0), (.tick 0 false 3, steady 1, 0),
   (.call 0 (.op (.insert (2, 0))), steady 2, 2), (.tick 0 false 5, steady 2, 0), (.tick 0 false 6, steady 2, 0), (.tick 0 false 7, steady 2, 0), (.tick 0 false 8, steady 2, 0),
   (.tick 0 false 9, steady 2, 0),
   (.call 0 (.op (.get 1)), steady 1, 1), (.tick 0 false 11, steady 1, 0), (.tick 0 false 12, steady 1, 0),
   (.call 0 (.op (.getOrInsert 1 (fun k => (k, 9)))), steady 1, 1), (.tick 0 false 14, steady 1, 0), (.tick 0 false 15, steady 1, 0),
   (.pin 1, steady 1, 0), (.call 1 .iter, steady 1, 0), (.tick 1 false 18, steady 1, 0), (.tick 1 false 19, steady 1, 0), (.tick 1 false 20, steady 1, 0), (.tick 1 false 21, steady 1, 0),
   (.tick 1 false 22, steady 1, 0), (.idle, steady 1, 0)]

set_option maxRecDepth 20000 in
def exBorrow : WExec Nat (Nat × Nat) := .ofRunGc exBorrowRun (by decide)

set_option maxRecDepth 20000 in
/-- The same, and in step 24 the iterator goes on. -/
def exBorrowOn : WExec Nat (Nat × Nat) := .ofRunGc (exBorrowRun ++ [(.tick 1 false 24, steady 1, 0)]) (by decide)

/-- Session 0 inserts the key 1, looks it up with `get` and with `get_or_insert_with`; an iterator, session 1, hands it out and is dropped; session 0 replaces it and drops its guard; session 2 removes the replacement
and drops its guard. The collector destroys both nodes. -/
def exOutliveRun : List (WLabel Nat (Nat × Nat)) :=
  [(.pin 0, steady 1, 0), (.call 0 (.op (.insert (1, 0))), steady 1, 1), (.tick 0 false 2, steady 1, 0), (.tick 0 false 3, steady 1, 0),
   (.call 0 (.op (.get 1)), steady 1, 1), (.tick 0 false 5, steady 1, 0),
   (.call 0 (.op (.getOrInsert 1 (fun k => (k, 9)))), steady 1, 1), (.tick 0 false 7, steady 1, 0),
   (.pin 1, steady 1, 0), (.call 1 .iter, steady 1, 0), (.tick 1 false 10, steady 1, 0), (.tick 1 false 11, steady 1, 0), (.tick 1 false 12, steady 1, 0), (.tick 1 false 13, steady 1, 0),
   (.unpin 1, steady 1, 0),
   (.call 0 (.op (.insert (1, 5))), steady 1, 1), (.tick 0 false 16, steady 1, 0), (.tick 0 false 17, steady 1, 0), (.unpin 0, steady 1, 0),
   (.pin 2, steady 1, 0), (.call 2 (.op (.remove 1)), steady 1, 1), (.tick 2 false 21, steady 1, 0), (.tick 2 false 22, steady 1, 0), (.unpin 2, steady 1, 0),
   (.free 0, steady 1, 0), (.free 1, steady 1, 0)]

set_option maxRecDepth 20000 in
def exOutlive : WExec Nat (Nat × Nat) := .ofRunGc exOutliveRun (by decide)


/-- All the nodes the element was in when the reference was handed out are as `f` says. -/
def allNodesb (E : WExec Nat (Nat × Nat)) (r : Ref (Nat × Nat)) (f : Nat → Bool) : Bool :=
  (List.range (E.st (r.born + 1)).m.next).all (fun a => match (E.st (r.born + 1)).m.deref a with
    | some (.data items) => !decide (r.elem ∈ items) || f a
    | _ => true)

theorem allNodes {E : WExec Nat (Nat × Nat)} {r : Ref (Nat × Nat)} {f : Nat → Bool} (hb : r.born < E.len) (h : allNodesb E r f = true) {a : Nat} {items : List (Nat × Nat)}
    (hi : r.elem ∈ items) (hd : (E.st (r.born + 1)).m.deref a = some (.data items)) : f a = true := by
  have hm : (E.st (r.born + 1)).m.mem a ≠ none := by
    simp only [Mem.deref] at hd
    split at hd
    · cases hd
    · rw [hd]; simp
  have hlt := E.mem_lt hb hm
  simp only [allNodesb, List.all_eq_true, List.mem_range] at h
  have := h a hlt
  rw [hd] at this
  simpa [hi] using this

/-- The reference is to an element whose memory was given back by the collector. -/
theorem exOutlive_bad {sigs : Fn → Sig} {r : Ref (Nat × Nat)} (hr : handedb exOutlive r = true) (hg : allNodesb exOutlive r (fun a => (exOutlive.st 26).m.freed a) = true)
    (hk : ¬ Keeps sigs r.fn r.fn.holder) (H : ∀ L : Life Nat (Nat × Nat), L.Accepted sigs → L.Safe) : False := by
  have ho := handed_of hr
  have hb : r.born < 26 := ho.1
  have ha : (oneUse exOutlive true none (fun d h => by cases h) 26 r).Accepted sigs := by
    refine ⟨?_, fun n t q _ _ d hd => by (cases hd), fun n t weak τ c _ _ _ _ d hd => by (cases hd)⟩
    rintro n q ⟨rfl, rfl⟩
    exact ⟨hb, Nat.le_refl _, ho, fun _ d hd => by (cases hd), fun h => absurd h hk⟩
  obtain ⟨a, items, h1, h2, -, h4⟩ := (H _ ha).uses 26 r ⟨rfl, rfl⟩
  exact h4 (.inl (allNodes hb hg h1 h2))

set_option maxRecDepth 20000 in
/-- The reference is to an element whose memory was given back when the map was dropped. -/
theorem exBorrow_bad {sigs : Fn → Sig} {r : Ref (Nat × Nat)} (hr : handedb exBorrow r = true)
    (hg : allNodesb exBorrow r (fun a => ((exBorrow.st 23).m.mem a).isSome && ((exBorrow.st 23).m.retired a).isNone) = true)
    (hk : ¬ Keeps sigs r.fn .map) (hkeep : exBorrow.KeepsGuard r.t r.born 24) (H : ∀ L : Life Nat (Nat × Nat), L.Accepted sigs → L.Safe) : False := by
  have ho := handed_of hr
  have hb : r.born < 24 := ho.1
  have early : ∀ n, n < 24 → n ≤ 23 := fun n h => by omega
  have ha : (oneUse exBorrow true (some 23) (fun d h => by cases h; rfl) 24 r).Accepted sigs := by
    refine ⟨?_, fun n t q hn _ d hd => by (cases hd; exact early n hn), fun n t weak τ c hn _ _ _ d hd => by (cases hd; exact early n hn)⟩
    rintro n q ⟨rfl, rfl⟩
    exact ⟨hb, Nat.le_refl _, ho, fun h => absurd h hk, fun _ => hkeep⟩
  obtain ⟨a, items, h1, h2, -, h4⟩ := (H _ ha).uses 24 r ⟨rfl, rfl⟩
  have h5 := allNodes hb hg h1 h2
  simp only [Bool.and_eq_true, Option.isSome_iff_ne_none, Option.isNone_iff_eq_none] at h5
  obtain ⟨m', l, g1, -, g2, -⟩ := C43_drop exBorrow true (i := 23) (by decide)
  exact h4 (.inr ⟨23, m', l, rfl, by decide, g1, (g2 a h5.1).2 h5.2⟩)

set_option maxRecDepth 20000 in
/-- The iterator goes on after the map was dropped. -/
theorem exBorrowOn_bad {sigs : Fn → Sig} (hk : ¬ Keeps sigs .iterNew .map) (H : ∀ L : Life Nat (Nat × Nat), L.Accepted sigs → L.Safe) : False := by
  have hlen : exBorrowOn.len = 25 := rfl
  have hit : (match ((exBorrowOn.st 24).thr 1).run with | some c => (match c.pc with | .iterNext _ _ => true | _ => false) && decide (c.pc.reads = some 0) | none => false) = true := by decide
  have ha : Life.Accepted (⟨exBorrowOn, true, some 23, fun _ _ => False, fun d h => by cases h; rfl⟩ : Life Nat (Nat × Nat)) sigs := by
    refine ⟨fun n r h => h.elim, ?_, ?_⟩
    · intro n t q hn hl d hd
      cases hd
      by_cases e : n = 24
      · subst e; cases hl
      · have : n < 25 := hn
        omega
    · intro n t weak τ c hn hl hc h d hd
      cases hd
      by_cases e : n = 24
      · subst e
        have e1 : exBorrowOn.lab 24 = .tick 1 false 24 := rfl
        have hl' : exBorrowOn.lab 24 = .tick t weak τ := hl
        rw [e1] at hl'
        cases hl'
        have hc' : ((exBorrowOn.st 24).thr 1).run = some c := hc
        rw [hc'] at hit
        rcases h with h | h
        · simp only [Bool.and_eq_true] at hit
          obtain ⟨hit', -⟩ := hit
          cases hit'
        · exact absurd h hk
      · have : n < 25 := hn
        omega
  split at hit
  · next c hc =>
    simp only [Bool.and_eq_true, decide_eq_true_eq] at hit
    have := ((H _ ha).steps 24 1 false 24 c (by decide) rfl hc).1 0 hit.2
    obtain ⟨m', l, g1, -, g2, -⟩ := C43_drop exBorrowOn true (i := 23) (by decide)
    have h1 : ((exBorrowOn.st 23).m.mem 0).isSome = true := by decide
    have h2 : ((exBorrowOn.st 23).m.retired 0).isNone = true := by decide
    exact this (.inr ⟨23, m', l, rfl, by decide, g1, (g2 0 (Option.isSome_iff_ne_none.1 h1)).2 (Option.isNone_iff_eq_none.1 h2)⟩)
  · cases hit

theorem keeps_of {E : WExec Nat (Nat × Nat)} {t j n : Nat} (h : (List.range (n + 1)).all (fun k => decide (k < j) || decide (((E.st k).thr t).pin = ((E.st j).thr t).pin)) = true) :
    E.KeepsGuard t j n := by
  intro k h1 h2
  simp only [List.all_eq_true, List.mem_range, Bool.or_eq_true, decide_eq_true_eq] at h
  rcases h k (by omega) with g | g
  · omega
  · exact g

set_option maxRecDepth 20000 in
/-- **C68.** The signatures are exactly right as they are, but for one thing: signatures (any, not only those of the code) make all accepted programs safe if and only if references obtained by `get`, `get_or_insert_with`
and from an iterator are tied to the map, iterators are tied to the map, and all references are tied to the guard (or the iterator that has it). (`insert` and `remove`, in addition, tie to the map what they return; but what they
return is not in the map any more, and dropping the map does not touch it.) -/
theorem C68_exact (sigs : Fn → Sig) : (∀ L : Life Nat (Nat × Nat), L.Accepted sigs → L.Safe) ↔ Enough sigs := by
  refine ⟨fun H => ?_, fun h L ha => C68_enough h L ha⟩
  have nn : ∀ {p : Prop}, (¬ p → False) → p := fun h => Classical.byContradiction h
  refine ⟨⟨nn fun h => ?_, nn fun h => ?_⟩, ⟨nn fun h => ?_, nn fun h => ?_⟩, nn fun h => ?_, nn fun h => ?_, nn fun h => ?_, ⟨nn fun h => ?_, nn fun h => ?_⟩⟩
  · exact exBorrow_bad (r := ⟨.get, 0, 12, (1, 0)⟩) (by decide) (by decide) h (keeps_of (by decide)) H
  · exact exOutlive_bad (r := ⟨.get, 0, 5, (1, 0)⟩) (by decide) (by decide) h H
  · exact exBorrow_bad (r := ⟨.getOrInsertWith, 0, 15, (1, 0)⟩) (by decide) (by decide) h (keeps_of (by decide)) H
  · exact exOutlive_bad (r := ⟨.getOrInsertWith, 0, 7, (1, 0)⟩) (by decide) (by decide) h H
  · exact exOutlive_bad (r := ⟨.insert, 0, 17, (1, 0)⟩) (by decide) (by decide) h H
  · exact exOutlive_bad (r := ⟨.remove, 2, 22, (1, 5)⟩) (by decide) (by decide) h H
  · exact exBorrowOn_bad h H
  · exact exBorrow_bad (r := ⟨.iterNext, 1, 23, (1, 0)⟩) (by decide) (by decide) h (keeps_of (by decide)) H
  · exact exOutlive_bad (r := ⟨.iterNext, 1, 12, (1, 0)⟩) (by decide) (by decide) h H

/-! ### Concrete programs -/

set_option maxRecDepth 20000 in
/-- Non-vacuity of `C68_safe`: an accepted program in which a reference from `get` is used while others work on the map, and the element is replaced in the meantime (its node is retired, not destroyed). -/
example : (oneUse exOutlive true none (fun d h => by cases h) 18 ⟨.get, 0, 5, (1, 0)⟩).Accepted codeSigs ∧ (exOutlive.st 18).m.retired 0 ≠ none := by
  refine ⟨⟨?_, fun n t q _ _ d hd => by (cases hd), fun n t weak τ c _ _ _ _ d hd => by (cases hd)⟩, by decide⟩
  rintro n q ⟨rfl, rfl⟩
  exact ⟨by decide, by decide, handed_of (by decide), fun _ d hd => by (cases hd), fun _ => keeps_of (by decide)⟩

set_option maxRecDepth 20000 in
/-- `CantExtendBeyondDestroy`, `src/tests/compile_fail.rs`: a reference from `get` is used after the map was dropped. Not accepted. -/
example : ¬ (oneUse exBorrow false (some 23) (fun d h => by cases h; rfl) 24 ⟨.get, 0, 12, (1, 0)⟩).Accepted codeSigs := by
  intro h
  have := (h.uses 24 _ ⟨rfl, rfl⟩).2.2.2.1 C68_code.get.1 23 rfl
  omega

set_option maxRecDepth 20000 in
/-- `DoesntOutliveIterator`, first part: a reference from `Iter::next` is used after the map was dropped. Not accepted. -/
example : ¬ (oneUse exBorrow false (some 23) (fun d h => by cases h; rfl) 24 ⟨.iterNext, 1, 23, (1, 0)⟩).Accepted codeSigs := by
  intro h
  have := (h.uses 24 _ ⟨rfl, rfl⟩).2.2.2.1 C68_code.iterNext.1 23 rfl
  omega

set_option maxRecDepth 20000 in
/-- `DoesntOutliveIterator`, second part: a reference from `Iter::next` is used after the iterator was dropped. Not accepted. -/
example : ¬ (oneUse exOutlive false none (fun d h => by cases h) 15 ⟨.iterNext, 1, 12, (1, 0)⟩).Accepted codeSigs := by
  intro h
  have := (h.uses 15 _ ⟨rfl, rfl⟩).2.2.2.2 C68_code.iterNext.2 15 (by decide) (by decide)
  revert this
  decide

end Contrie
