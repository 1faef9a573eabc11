import Verif.Proof.Client
/-
Programs can be executed: a session that runs alone finishes.
-/
set_option linter.unusedSectionVars false
namespace Contrie
variable {K P α β : Type} [DecidableEq K]

/-- The result has the type that belongs to the request. -/
def Res.Fits : Req K P → Res P → Prop
  | .op (.getOrInsert _ _), .op (.eon _) => True
  | .op (.get _), .op (.opt _) => True
  | .op (.insert _), .op (.opt _) => True
  | .op (.remove _), .op (.opt _) => True
  | .isEmpty, .bool _ => True
  | .iter, .list _ => True
  | _, _ => False

theorem Exec.fits {cfg : Config K P} (E : Exec cfg) {id j : Nat} {r : Req K P} {x : Res P} (h1 : E.Invoked id r) (h2 : E.Returns j id x) :
    x.Fits r := by
  obtain ⟨t, c, refs, weak, g1, g2, g3, g4, g5, g6, g7, g8⟩ := E.res h2
  have hcr : c.req = r := by
    rw [Exec.Invoked] at h1; rw [h1] at g8; injection g8 with g8; injection g8 with _ g8; exact g8.symm
  have hr := g4.2
  rw [hcr] at hr
  cases r with
  | op o =>
    obtain ⟨ret, rfl, -⟩ := hr
    have key : ∀ A A' : AMap K P, A.apply cfg.key o = (A', ret) → (Res.op ret).Fits (Req.op o) := by
      intro A A' h
      cases o <;> simp only [AMap.apply] at h
      · cases h; trivial
      · cases h; trivial
      · split at h <;> cases h <;> trivial
      · cases h; trivial
    obtain ⟨-, ⟨τ, a1, a2, a3⟩ | ⟨b0, τ, a1, a2, a3⟩⟩ := E.res_op h1 h2
    · exact key _ _ (E.A_some a3)
    · exact key _ _ a3
  | isEmpty => obtain ⟨b, rfl, -⟩ := hr; trivial
  | iter => obtain ⟨l, rfl, -⟩ := hr; trivial

variable {key : P → K}

/-- The program is well typed and obeys the contract of the closures of `get_or_insert_with`. -/
def Prog.Typed (key : P → K) : Prog K P α → Prop
  | .ret _ => True
  | .wrong => False
  | .call _ r k => (match r with | .op o => o.WF key | _ => True) ∧ ∀ x, x.Fits r → (k x).Typed key

theorem Prog.Typed.bind {p : Prog K P α} {f : α → Prog K P β} (hp : p.Typed key) (hf : ∀ a, (f a).Typed key) : (p.bind f).Typed key := by
  induction p with
  | ret a => exact hf a
  | wrong => exact hp
  | call m r k ih => exact ⟨hp.1, fun x hx => ih x (hp.2 x hx)⟩

theorem Prog.Typed.forEach {f : α → Prog K P β} (hf : ∀ a, (f a).Typed key) (l : List α) : (Prog.forEach f l).Typed key := by
  induction l with
  | nil => trivial
  | cons a l ih => exact (hf a).bind (fun _ => ih)

theorem Prog.Typed.all {l : List (Prog K P α)} (hf : ∀ p ∈ l, p.Typed key) : (Prog.all l).Typed key := by
  induction l with
  | nil => trivial
  | cons a l ih =>
    exact (hf a (by simp)).bind (fun _ => (ih (fun p hp => hf p (by simp [hp]))).bind (fun _ => trivial))

theorem Prog.Typed.opt {m : Nat} {o : Op K P} {f : Option P → α} (h : match o with | .getOrInsert _ _ => False | _ => True) :
    (Prog.opt m o f).Typed key := by
  cases o <;> first | exact h.elim | exact ⟨trivial, fun x hx => by cases x <;> try exact hx.elim
                                                                    rename_i r; cases r <;> first | exact hx.elim | trivial⟩

theorem Prog.Typed.eon {m : Nat} {k : K} {g : K → P} {f : ExistingOrNew P → α} (h : key (g k) = k) :
    (Prog.eon m (.getOrInsert k g) f).Typed key :=
  ⟨h, fun x hx => by cases x <;> try exact hx.elim
                     rename_i r; cases r <;> first | exact hx.elim | trivial⟩

theorem Prog.Typed.isEmpty {m : Nat} {f : Bool → α} : (Prog.isEmpty (K := K) (P := P) m f).Typed key :=
  ⟨trivial, fun x hx => by cases x <;> first | exact hx.elim | trivial⟩

theorem Prog.Typed.iter {m : Nat} {f : List P → α} : (Prog.iter (K := K) (P := P) m f).Typed key :=
  ⟨trivial, fun x hx => by cases x <;> first | exact hx.elim | trivial⟩

/-- Two worlds are the same up to instant `i`. -/
structure World.Same (W W' : World key) (i : Nat) : Prop where
  hash : W'.hash = W.hash
  st : ∀ m n, n ≤ i → (W'.ex m).st n = (W.ex m).st n
  lab : ∀ m n, n < i → (W'.ex m).lab n = (W.ex m).lab n
  ev : ∀ m n, n < i → (W'.ex m).ev n = (W.ex m).ev n

theorem World.Same.trans {W W1 W2 : World key} {i j : Nat} (h1 : W.Same W1 i) (h2 : W1.Same W2 j) (hij : i ≤ j) : W.Same W2 i where
  hash := by rw [h2.hash, h1.hash]
  st := fun m n hn => by rw [h2.st m n (by omega), h1.st m n hn]
  lab := fun m n hn => by rw [h2.lab m n (by omega), h1.lab m n hn]
  ev := fun m n hn => by rw [h2.ev m n (by omega), h1.ev m n hn]

theorem World.splice (W : World key) (i m : Nat) {ls : List (Label K P)} {s' : State K P} {es : List (Event K P)}
    (h1 : RunOK ⟨key, W.hash m⟩ ((W.ex m).st i) ls) (h2 : runList ⟨key, W.hash m⟩ ((W.ex m).st i) ls = some (s', es)) :
    ∃ W' : World key, W.Same W' i ∧ (∀ j, (W'.ex m).lab (i + j) = ls.getD j .idle) ∧ (∀ m' j, m' ≠ m → (W'.ex m').lab (i + j) = .idle) ∧
      (List.range ls.length).filterMap (fun j => (W'.ex m).ev (i + j)) = es := by
  have : ∀ m', ∃ E' : Exec ⟨key, W.hash m'⟩, (∀ j, j ≤ i → E'.st j = (W.ex m').st j) ∧
      (∀ j, j < i → E'.lab j = (W.ex m').lab j ∧ E'.ev j = (W.ex m').ev j) ∧
      (m' = m → (∀ j, E'.lab (i + j) = ls.getD j .idle) ∧ (List.range ls.length).filterMap (fun j => E'.ev (i + j)) = es) ∧
      (m' ≠ m → ∀ j, E'.lab (i + j) = .idle) := by
    intro m'
    by_cases e : m' = m
    · subst e
      obtain ⟨E', g1, g2, g3, g4⟩ := (W.ex m').splice i h1
      rw [h2] at g3
      simp only [Option.some.injEq, Prod.mk.injEq] at g3
      exact ⟨E', g1, g2, fun _ => ⟨g4, g3.2.symm⟩, fun h => absurd rfl h⟩
    · obtain ⟨E', g1, g2, g3, g4⟩ := (W.ex m').splice i (ls := []) trivial
      exact ⟨E', g1, g2, fun h => absurd h e, fun _ j => by rw [g4]; simp⟩
  choose ex hex using this
  refine ⟨⟨W.hash, ex, ?_⟩, ⟨rfl, fun m' n hn => (hex m').1 n hn, fun m' n hn => ((hex m').2.1 n hn).1, fun m' n hn => ((hex m').2.1 n hn).2⟩,
    ((hex m).2.2.1 rfl).1, fun m' j hm => (hex m').2.2.2 hm j, ((hex m).2.2.1 rfl).2⟩
  intro n a b ha hb
  by_cases hn : n < i
  · rw [((hex a).2.1 n hn).1] at ha
    rw [((hex b).2.1 n hn).1] at hb
    exact W.sole n a b ha hb
  · obtain ⟨j, rfl⟩ : ∃ j, n = i + j := ⟨n - i, by omega⟩
    have h : ∀ c, (ex c).lab (i + j) ≠ .idle → c = m := by
      intro c hc
      by_cases e : c = m
      · exact e
      · exact absurd ((hex c).2.2.2 e j) hc
    rw [h a ha, h b hb]

/-- From instant `i` on, only session `t` does anything, and it does not unwind. -/
def World.Solo (W : World key) (t i : Nat) : Prop :=
  ∀ n, i ≤ n → ∀ m, (W.ex m).lab n = .idle ∨ (W.ex m).lab n = .pin t ∨ (∃ r, (W.ex m).lab n = .call t r) ∨ (W.ex m).lab n = .tick t false

/-- One call, alone: it can be made and returns. -/
theorem World.one_call (W : World key) (i t m : Nat) (hi : ∀ m, (((W.ex m).st i).thr t).run = none) (r : Req K P)
    (hwf : match r with | .op o => o.WF key | _ => True) :
    ∃ W' id j x, W.Same W' i ∧ W'.Solo t i ∧ i ≤ id ∧ id < j ∧ W'.Quiet t i id ∧ (W'.ex m).lab id = .call t r ∧ W'.Quiet t (id + 1) (j + 1) ∧
      (W'.ex m).ev j = some (.res id x) ∧ (∀ m', (((W'.ex m').st (j + 1)).thr t).run = none) := by
  -- take a guard if there is none
  have hpin : ∃ W1 i1 p, W.Same W1 i ∧ i ≤ i1 ∧ (((W1.ex m).st i1).thr t).pin = some p ∧ (∀ m', (((W1.ex m').st i1).thr t).run = none) ∧
      ∀ n, i ≤ n → n < i1 → ∀ m', (W1.ex m').lab n = .idle ∨ (W1.ex m').lab n = .pin t := by
    cases hp : (((W.ex m).st i).thr t).pin with
    | some p => exact ⟨W, i, p, ⟨rfl, fun _ _ _ => rfl, fun _ _ _ => rfl, fun _ _ _ => rfl⟩, Nat.le_refl _, hp, hi, fun n a b => by omega⟩
    | none =>
      have hf := (((W.ex m).inv i).thr t).noFail
      have hs : ∃ s', Contrie.step ⟨key, W.hash m⟩ ((W.ex m).st i) (.pin t) = some (s', none) ∧ (s'.thr t).pin = some ((W.ex m).st i).m.clock := by
        simp only [Contrie.step, hp, hf]
        exact ⟨_, rfl, by simp⟩
      obtain ⟨s', hs, hs'⟩ := hs
      obtain ⟨W1, g1, g2, g3, g4⟩ := W.splice i m (ls := [.pin t]) (s' := s') (es := []) ⟨trivial, trivial, by rw [hs]; trivial⟩
        (by simp [runList, hs])
      have hl : (W1.ex m).lab i = .pin t := by simpa using g2 0
      have hst := (W1.ex m).step i
      rw [hl, g1.st m i (Nat.le_refl _)] at hst
      simp only [Contrie.step, hp, hf, Option.some.injEq, Prod.mk.injEq] at hst
      refine ⟨W1, i + 1, ((W.ex m).st i).m.clock, g1, by omega, by rw [← hst.1]; simp, ?_, ?_⟩
      · intro m'
        cases hr : (((W1.ex m').st (i + 1)).thr t).run with
        | none => rfl
        | some c =>
          rcases step_run ((W1.ex m').step i) hr with ⟨c0, e1, e2, e3⟩ | ⟨e1, e2, e3⟩
          · rw [g1.st m' i (Nat.le_refl _), hi m'] at e1; cases e1
          · by_cases e : m' = m
            · subst e; rw [hl] at e3; cases e3
            · have := g3 m' 0 e
              simp only [Nat.add_zero] at this
              rw [this] at e3; cases e3
      · intro n a b m'
        have : n = i := by omega
        subst this
        by_cases e : m' = m
        · subst e; exact Or.inr hl
        · exact Or.inl (by simpa using g3 m' 0 e)
  obtain ⟨W1, i1, p, s1, hi1, hp, hidle, hq1⟩ := hpin
  obtain ⟨n, s', x, hok, hrun, hdone⟩ := C10_solo_call (W1.ex m) i1 t hp (hidle m) r (by cases r <;> exact hwf)
  obtain ⟨W2, g1, g2, g3, g4⟩ := W1.splice i1 m hok hrun
  have hl : (W2.ex m).lab i1 = .call t r := by simpa using g2 0
  have hlt : ∀ j, (W2.ex m).lab (i1 + 1 + j) = .idle ∨ (W2.ex m).lab (i1 + 1 + j) = .tick t false := by
    intro j
    have := g2 (1 + j)
    rw [show i1 + (1 + j) = i1 + 1 + j by omega] at this
    rw [this]
    simp only [List.getD, show 1 + j = j + 1 by omega, List.getElem?_cons_succ, List.getElem?_replicate]
    split <;> simp
  have hev : ∃ j, (W2.ex m).ev j = some (.res i1 x) := by
    have : (Event.res i1 x : Event K P) ∈ (List.range (Label.call t r :: List.replicate n (.tick t false)).length).filterMap
        (fun j => (W2.ex m).ev (i1 + j)) := by rw [g4]; simp
    rw [List.mem_filterMap] at this
    obtain ⟨j, -, h⟩ := this
    exact ⟨_, h⟩
  obtain ⟨j, hj⟩ := hev
  obtain ⟨t', c, refs, weak, k1, k2, k3, k4, k5, k6, k7, k8⟩ := (W2.ex m).res hj
  have ht : t' = t := by
    obtain ⟨c', f1, f2, -⟩ := (W2.ex m).busy hl hj (τ := j) (by omega) (Nat.le_refl _)
    exact ((W2.ex m).inv j).inj t' t c c' k2 f1 (by rw [k3, f2])
  subst ht
  have hpre : ∀ n, i ≤ n → n < i1 → ∀ m', (W2.ex m').lab n = .idle ∨ (W2.ex m').lab n = .pin t' := by
    intro n a b m'; rw [g1.lab m' n b]; exact hq1 n a b m'
  have hpost : ∀ n, i1 + 1 ≤ n → ∀ m', (W2.ex m').lab n = .idle ∨ (W2.ex m').lab n = .tick t' false := by
    intro n a m'
    by_cases e : m' = m
    · subst e; have := hlt (n - (i1 + 1)); rwa [show i1 + 1 + (n - (i1 + 1)) = n by omega] at this
    · left; have := g3 m' (n - i1) e; rwa [show i1 + (n - i1) = n by omega] at this
  refine ⟨W2, i1, j, x, s1.trans g1 hi1, ?_, hi1, k7, ?_, hl, ?_, hj, ?_⟩
  · intro n a m'
    by_cases b : n < i1
    · rcases hpre n a b m' with h | h
      · exact Or.inl h
      · exact Or.inr (Or.inl h)
    · by_cases e : n = i1
      · subst e
        by_cases em : m' = m
        · subst em; exact Or.inr (Or.inr (Or.inl ⟨r, hl⟩))
        · exact Or.inl (by simpa using g3 m' 0 em)
      · rcases hpost n (by omega) m' with h | h
        · exact Or.inl h
        · exact Or.inr (Or.inr (Or.inr h))
  · intro n a b m' r' e
    rcases hpre n a b m' with h | h <;> rw [h] at e <;> cases e
  · intro n a b m' r' e
    rcases hpost n a m' with h | h <;> rw [h] at e <;> cases e
  · intro m'
    by_cases em : m' = m
    · subst em; exact k6
    · have hstep : ∀ n, i1 ≤ n → (((W2.ex m').st n).thr t').run = none := by
        intro n
        induction n with
        | zero => intro a; rw [(W2.ex m').init]; rfl
        | succ n ih =>
          intro a
          by_cases e : i1 = n + 1
          · subst e; rw [g1.st m' _ (Nat.le_refl _)]; exact hidle m'
          · cases hr : (((W2.ex m').st (n + 1)).thr t').run with
            | none => rfl
            | some c =>
              rcases step_run ((W2.ex m').step n) hr with ⟨c0, e1, e2, e3⟩ | ⟨e1, e2, e3⟩
              · rw [ih (by omega)] at e1; cases e1
              · have := g3 m' (n - i1) em
                rw [show i1 + (n - i1) = n by omega] at this
                rw [this] at e3; cases e3
      exact hstep _ (by omega)

/-- In any state of any world - whatever half-finished work other sessions left behind -, a session that is not in a call can execute any program, and
if it runs alone, it finishes. -/
theorem Prog.can_run {p : Prog K P α} (hp : p.Typed key) (W : World key) (i t : Nat) (hi : ∀ m, (((W.ex m).st i).thr t).run = none) :
    ∃ W' j a, W.Same W' i ∧ W'.Solo t i ∧ W'.Runs t p i j a := by
  induction p generalizing W i with
  | ret a =>
    obtain ⟨W', g1, g2, g3, g4⟩ := W.splice i 0 (ls := []) trivial rfl
    refine ⟨W', i, a, g1, ?_, .ret (Nat.le_refl _) (fun n a b => by omega)⟩
    intro n a m
    left
    by_cases e : m = 0
    · subst e; have := g2 (n - i); rw [show i + (n - i) = n by omega] at this; rw [this]; rfl
    · have := g3 m (n - i) e; rwa [show i + (n - i) = n by omega] at this
  | wrong => exact hp.elim
  | call m r k ih =>
    obtain ⟨W1, id, j, x, s1, hsolo, h1, h2, q1, hl, q2, hev, hidle⟩ := W.one_call i t m hi r hp.1
    obtain ⟨W2, j', a, s2, hsolo2, hr⟩ := ih x (hp.2 x ((W1.ex m).fits ((W1.ex m).invoked_of_call hl) hev)) W1 (j + 1) hidle
    refine ⟨W2, j', a, s1.trans s2 (by omega), ?_, ?_⟩
    · intro n a m'
      by_cases b : n < j + 1
      · rw [s2.lab m' n b]; exact hsolo n a m'
      · exact hsolo2 n (by omega) m'
    · refine .call h1 ?_ (by rw [s2.lab m _ (by omega)]; exact hl) h2 ?_ (by rw [s2.ev m _ (by omega)]; exact hev) hr
      · intro n a b m' r'; rw [s2.lab m' n (by omega)]; exact q1 n a b m' r'
      · intro n a b m' r'; rw [s2.lab m' n (by omega)]; exact q2 n a b m' r'

end Contrie
