import Verif.Model.Client
import Verif.Props.Sequential
/-
From the executions of programs (`World.Runs`) to their meaning on plain maps.
-/
set_option linter.unusedSectionVars false
namespace Contrie
variable {K P α β : Type} [DecidableEq K]

section
variable {cfg : Config K P} (E : Exec cfg)

/-- What takes effect is an update. -/
theorem Exec.W_update {i : Nat} {lp : LP K P} (h : E.W i = some lp) {t : Nat} {c : Call K P} (hc : ((E.st i).thr t).run = some c)
    (hid : c.inv = lp.id) : c.req.isUpdate = true := by
  obtain ⟨u, c', h1, h2, h3, h4, weak, h5⟩ := E.W_call h
  have : u = t := (E.inv i).inj u t c' c h1 hc (by rw [hid, h2])
  subst this
  rw [h1] at hc
  cases hc
  have hp := E.run_pcinv h1
  unfold PCInv at hp
  rw [Exec.W, h5] at h
  simp only [lpStep, h1, lpOf, h3] at h
  cases hpc : c.pc <;> simp only [hpc] at h hp <;> try cases h
  · obtain ⟨d, -, ht, -⟩ := hp
    exact ht.req.upd
  · rw [hp.1]; rfl

/-- A call in progress has been in progress since its invocation. -/
theorem Exec.run_back {j t : Nat} {c : Call K P} (h : ((E.st j).thr t).run = some c) {τ : Nat} (h1 : c.inv < τ) (h2 : τ ≤ j) :
    ∃ c', ((E.st τ).thr t).run = some c' ∧ c'.inv = c.inv ∧ c'.req = c.req := by
  induction j generalizing c with
  | zero => rw [E.init] at h; cases h
  | succ j ih =>
    by_cases e : τ = j + 1
    · subst e; exact ⟨c, h, rfl, rfl⟩
    · rcases step_run (E.step j) h with ⟨c0, e1, e2, e3⟩ | ⟨e1, e2, e3⟩
      · obtain ⟨c', g1, g2, g3⟩ := ih e1 (by omega) (by omega)
        exact ⟨c', g1, by rw [g2, e2], by rw [g3, e3]⟩
      · rw [E.clock] at e1; omega

/-- The session of a completed call is busy with it from its invocation to its return. -/
theorem Exec.busy {id j t : Nat} {r : Req K P} {x : Res P} (hl : E.lab id = .call t r) (hr : E.Returns j id x) {τ : Nat} (h1 : id < τ)
    (h2 : τ ≤ j) : ∃ c, ((E.st τ).thr t).run = some c ∧ c.inv = id ∧ c.req = r := by
  obtain ⟨u, c, refs, weak, g1, g2, g3, -⟩ := E.res hr
  obtain ⟨-, -, h4⟩ := E.run_inv j g2
  rw [g3, hl] at h4
  injection h4 with h4 h5
  subst h4
  obtain ⟨c', k1, k2, k3⟩ := E.run_back g2 (τ := τ) (by omega) h2
  exact ⟨c', k1, by rw [k2, g3], by rw [k3, h5]⟩

theorem Exec.invoked_of_call {id t : Nat} {r : Req K P} (hl : E.lab id = .call t r) : E.Invoked id r := by
  have hs := E.step id
  rw [hl] at hs
  have := (step_call hs).2
  rw [Exec.Invoked, this.1, E.clock]

/-- A call that is not disturbed by updates of other sessions is answered as by a plain map. -/
theorem Exec.call_alone {id j t : Nat} {r : Req K P} {x : Res P} (hl : E.lab id = .call t r) (hr : E.Returns j id x)
    (hu : ∀ n, id ≤ n → n ≤ j → ∀ t' w c, E.lab n = .tick t' w → ((E.st n).thr t').run = some c → c.req.isUpdate = true → t' = t)
    (hempty : r = .isEmpty → E.RemovalsAlone j ∧ ∀ t' c, ((E.st j).thr t').run = some c → c.req.isUpdate = true → t' = t) : (E.content id).Answers cfg.key r x (E.content (j + 1)) := by
  refine E.answers (E.invoked_of_call hl) hr ?_ ?_
  · intro τ lp a1 a2 hw
    obtain ⟨u, c, h1, h2, h3, h4, weak, h5⟩ := E.W_call hw
    have hup := E.W_update hw h1 h2.symm
    have := hu τ a1 a2 u weak c h5 h1 hup
    subst this
    by_cases e : τ = id
    · subst e; rw [hl] at h5; cases h5
    · obtain ⟨c', k1, k2, -⟩ := E.busy hl hr (τ := τ) (by omega) a2
      rw [h1] at k1; cases k1
      rw [h2, k2]
  · intro he
    refine ⟨(hempty he).1, ?_⟩
    obtain ⟨u, c, refs, weak, g1, g2, g3, g4, g5, g6, g7, g8⟩ := E.res hr
    intro v c' hc'
    cases hup : c'.req.isUpdate with
    | false => rfl
    | true =>
      have := (hempty he).2 v c' hc' hup
      subst this
      obtain ⟨c2, k1, k2, k3⟩ := E.busy hl hr (τ := j) (by omega) (Nat.le_refl _)
      rw [hc'] at k1; cases k1
      rw [k3, he] at hup; cases hup

end

/-- Does the program ask whether a map is empty? -/
def Prog.AsksEmpty : Prog K P α → Prop
  | .ret _ => False
  | .call _ r k => r = .isEmpty ∨ ∃ x, (k x).AsksEmpty
  | .wrong => False

/-- The meaning of a program on plain maps. -/
inductive Prog.Means (key : P → K) : (Nat → AMap K P) → Prog K P α → α → (Nat → AMap K P) → Prop
  | ret {A : Nat → AMap K P} {a : α} : Means key A (.ret a) a A
  | call {A A' : Nat → AMap K P} {A1 : AMap K P} {m : Nat} {r : Req K P} {x : Res P} {k : Res P → Prog K P α} {a : α}
      (h : (A m).Answers key r x A1) (hk : Means key (upd A m A1) (k x) a A') : Means key A (.call m r k) a A'

variable {key : P → K}

theorem Prog.Means.bind {A A' : Nat → AMap K P} {p : Prog K P α} {f : α → Prog K P β} {b : β}
    (h : (p.bind f).Means key A b A') : ∃ a A1, p.Means key A a A1 ∧ (f a).Means key A1 b A' := by
  induction p generalizing A with
  | ret a => exact ⟨a, A, .ret, h⟩
  | wrong => cases h
  | call m r k ih =>
    simp only [Prog.bind] at h
    cases h with
    | call h hk =>
      obtain ⟨a, A1, h1, h2⟩ := ih _ hk
      exact ⟨a, A1, .call h h1, h2⟩

/-- The content of all maps of a world. -/
def World.content (W : World key) (i : Nat) : Nat → AMap K P := fun m => (W.ex m).content i

theorem World.Runs.le {W : World key} {t i j : Nat} {p : Prog K P α} {a : α} (h : W.Runs t p i j a) : i ≤ j := by
  induction h with
  | ret h => exact h
  | call h1 _ _ h2 _ _ _ ih => omega

/-- Nothing changes while a session that is not disturbed is between two calls. -/
theorem World.still (W : World key) {t i j : Nat} (hu : ∀ m, W.Undisturbed m t i j) (hq : W.Quiet t i j) {n : Nat} (h1 : i ≤ n) (h2 : n ≤ j) :
    W.content n = W.content i ∧ ∀ m, (((W.ex m).st n).thr t).run = none := by
  induction n with
  | zero =>
    have : i = 0 := by omega
    subst this; exact ⟨rfl, fun m => (hu m).idle⟩
  | succ n ih =>
    by_cases e : i = n + 1
    · subst e; exact ⟨rfl, fun m => (hu m).idle⟩
    · obtain ⟨h3, h4⟩ := ih (by omega) (by omega)
      refine ⟨?_, ?_⟩
      · rw [← h3]
        funext m
        refine (W.ex m).A_none ?_
        cases hw : (W.ex m).W n with
        | none => rfl
        | some lp =>
          obtain ⟨u, c, g1, g2, -, -, w, g3⟩ := (W.ex m).W_call hw
          have hup := (W.ex m).W_update hw g1 g2.symm
          have := (hu m).alone n (by omega) (by omega) u w c g3 g1 hup
          subst this
          rw [h4 m] at g1; cases g1
      · intro m
        cases hr : (((W.ex m).st (n + 1)).thr t).run with
        | none => rfl
        | some c =>
          rcases step_run ((W.ex m).step n) hr with ⟨c0, e1, e2, e3⟩ | ⟨e1, e2, e3⟩
          · rw [h4 m] at e1; cases e1
          · exact absurd e3 (hq n (by omega) (by omega) m _)

theorem World.Undisturbed.sub {W : World key} {m t i j i' j' : Nat} (hu : W.Undisturbed m t i j)
    (hi : (((W.ex m).st i').thr t).run = none) (h1 : i ≤ i') (h2 : j' ≤ j) : W.Undisturbed m t i' j' where
  idle := hi
  alone := fun n a b => hu.alone n (by omega) (by omega)

theorem World.NoneElse.undisturbed {W : World key} {m t i j : Nat} (h : W.NoneElse m t i j) (hi : (((W.ex m).st i).thr t).run = none) : W.Undisturbed m t i j where
  idle := hi
  alone := fun n a b t' _ c _ hc hu => h n a (by omega) t' c hc hu

theorem World.NoneElse.sub {W : World key} {m t i j i' j' : Nat} (h : W.NoneElse m t i j) (h1 : i ≤ i') (h2 : j' ≤ j) : W.NoneElse m t i' j' :=
  fun n a b => h n (by omega) (by omega)

theorem Exec.serial_mono {cfg : Config K P} {E : Exec cfg} {n n' : Nat} (h : E.RemovalsAlone n) (hn : n' ≤ n) : E.RemovalsAlone n' where
  alone := fun i hi => h.alone i (by omega)
  finished := fun i hi => h.finished i (by omega)

/-- **Refinement.** A program executed by a session that is not disturbed by updates of other sessions does what it means. -/
theorem World.Runs.means {W : World key} {t i j : Nat} {p : Prog K P α} {a : α} (h : W.Runs t p i j a) (hu : ∀ m, W.Undisturbed m t i j)
    (hempty : p.AsksEmpty → ∀ m, (W.ex m).RemovalsAlone j ∧ W.NoneElse m t i j) : p.Means key (W.content i) a (W.content j) := by
  induction h with
  | ret h hq =>
    rw [(W.still hu hq h (Nat.le_refl _)).1]
    exact .ret
  | @call m i id j j' r x k a h1 hq1 hc h2 hq2 hr hk ih =>
    have hle := hk.le
    have hcont := (W.still (fun m => (hu m).sub (hu m).idle (Nat.le_refl _) (by omega : id ≤ j')) hq1 h1 (Nat.le_refl _))
    have hres := (W.ex m).res hr
    obtain ⟨t', c, refs, weak, g1, g2, g3, g4, g5, g6, g7, g8⟩ := hres
    have ht : t' = t := by
      obtain ⟨c', k1, k2, -⟩ := (W.ex m).busy hc hr (τ := j) h2 (Nat.le_refl _)
      exact ((W.ex m).inv j).inj t' t c c' g2 k1 (by rw [g3, k2])
    subst ht
    -- other maps are not touched
    have hother : ∀ n, id ≤ n → n ≤ j + 1 → ∀ m', m' ≠ m → (W.ex m').content n = (W.ex m').content id ∧
        (((W.ex m').st n).thr t').run = none := by
      intro n
      induction n with
      | zero =>
        intro a1 a2 m' hm
        have : id = 0 := by omega
        subst this; exact ⟨rfl, hcont.2 m'⟩
      | succ n ihn =>
        intro a1 a2 m' hm
        by_cases e : id = n + 1
        · subst e; exact ⟨rfl, hcont.2 m'⟩
        · obtain ⟨b1, b2⟩ := ihn (by omega) (by omega) m' hm
          refine ⟨?_, ?_⟩
          · rw [← b1]
            refine (W.ex m').A_none ?_
            cases hw : (W.ex m').W n with
            | none => rfl
            | some lp =>
              obtain ⟨u, c', f1, f2, -, -, w, f3⟩ := (W.ex m').W_call hw
              have hup := (W.ex m').W_update hw f1 f2.symm
              have := (hu m').alone n (by omega) (by omega) u w c' f3 f1 hup
              subst this
              rw [b2] at f1; cases f1
          · cases hrun : (((W.ex m').st (n + 1)).thr t').run with
            | none => rfl
            | some c' =>
              rcases step_run ((W.ex m').step n) hrun with ⟨c0, e1, e2, e3⟩ | ⟨e1, e2, e3⟩
              · rw [b2] at e1; cases e1
              · exfalso
                by_cases e : n = id
                · subst e
                  exact hm (W.sole n m' m (by rw [e3]; simp) (by rw [hc]; simp))
                · exact hq2 n (by omega) (by omega) m' _ e3
    have hans := (W.ex m).call_alone hc hr (fun n a1 a2 => (hu m).alone n (by omega) (by omega))
      (fun e => ⟨Exec.serial_mono (hempty (Or.inl e) m).1 (by omega), fun u' c' => (hempty (Or.inl e) m).2 j (by omega) (by omega) u' c'⟩)
    have hidle : ∀ m', (((W.ex m').st (j + 1)).thr t').run = none := by
      intro m'
      by_cases e : m' = m
      · subst e; exact g6
      · exact (hother (j + 1) (by omega) (Nat.le_refl _) m' e).2
    have hrest := ih (fun m => (hu m).sub (hidle m) (by omega) (Nat.le_refl _)) (fun e m => ⟨(hempty (Or.inr ⟨x, e⟩) m).1, (hempty (Or.inr ⟨x, e⟩) m).2.sub (by omega) (Nat.le_refl _)⟩)
    rw [← hcont.1]
    refine .call hans ?_
    have : upd (W.content id) m ((W.ex m).content (j + 1)) = W.content (j + 1) := by
      funext m'
      by_cases e : m' = m
      · subst e; simp [World.content]
      · rw [upd_other _ _ e]; exact (hother (j + 1) (by omega) (Nat.le_refl _) m' e).1.symm
    rw [this]
    exact hrest

/-- The program makes calls to map `m` only. -/
def Prog.On (m : Nat) : Prog K P α → Prop
  | .ret _ => True
  | .call m' _ k => m' = m ∧ ∀ x, (k x).On m
  | .wrong => True

theorem Prog.On.bind {m : Nat} {p : Prog K P α} {f : α → Prog K P β} (hp : p.On m) (hf : ∀ a, (f a).On m) : (p.bind f).On m := by
  induction p with
  | ret a => exact hf a
  | wrong => trivial
  | call m' r k ih => exact ⟨hp.1, fun x => ih x (hp.2 x)⟩

theorem Prog.On.forEach {m : Nat} {f : α → Prog K P β} (hf : ∀ a, (f a).On m) (l : List α) : (Prog.forEach f l).On m := by
  induction l with
  | nil => trivial
  | cons a l ih => exact (hf a).bind (fun _ => ih)

theorem Prog.On.all {m : Nat} {l : List (Prog K P α)} (hf : ∀ p ∈ l, p.On m) : (Prog.all l).On m := by
  induction l with
  | nil => trivial
  | cons a l ih => exact (hf a (by simp)).bind (fun _ => (ih (fun p hp => hf p (by simp [hp]))).bind (fun _ => trivial))

theorem Prog.On.opt {m : Nat} {o : Op K P} {f : Option P → α} : (Prog.opt m o f).On m :=
  ⟨rfl, fun x => by cases x with
    | op r => cases r <;> trivial
    | bool b => trivial
    | list l => trivial⟩

theorem Prog.On.eon {m : Nat} {o : Op K P} {f : ExistingOrNew P → α} : (Prog.eon m o f).On m :=
  ⟨rfl, fun x => by cases x with
    | op r => cases r <;> trivial
    | bool b => trivial
    | list l => trivial⟩

theorem Prog.On.isEmpty {m : Nat} {f : Bool → α} : (Prog.isEmpty (K := K) (P := P) m f).On m := ⟨rfl, fun x => by cases x <;> trivial⟩

theorem Prog.On.iter {m : Nat} {f : List P → α} : (Prog.iter (K := K) (P := P) m f).On m := ⟨rfl, fun x => by cases x <;> trivial⟩

/-- A world in which nothing has happened. -/
theorem World.start (key : P → K) (hash : Nat → K → BitVec 64) : ∃ W : World key, W.hash = hash ∧ ∀ m n, (W.ex m).lab n = .idle := by
  have : ∀ m, ∃ E : Exec (⟨key, hash m⟩ : Config K P), ∀ n, E.lab n = .idle := by
    intro m
    obtain ⟨E, -, h1⟩ := Exec.ofList (cfg := (⟨key, hash m⟩ : Config K P)) (ls := []) trivial
    exact ⟨E, fun n => by rw [h1]; simp⟩
  choose ex hex using this
  exact ⟨⟨hash, ex, fun i m m' h => absurd (hex m i) h⟩, rfl, hex⟩

theorem Exec.idle_run {cfg : Config K P} (E : Exec cfg) (h : ∀ n, E.lab n = .idle) (n t : Nat) : ((E.st n).thr t).run = none := by
  induction n with
  | zero => rw [E.init]; rfl
  | succ n ih =>
    cases hr : ((E.st (n + 1)).thr t).run with
    | none => rfl
    | some c =>
      rcases step_run (E.step n) hr with ⟨c0, e1, -, -⟩ | ⟨-, -, e3⟩
      · rw [ih] at e1; cases e1
      · rw [h] at e3; cases e3

/-- The world as seen by somebody who uses only map `m`. -/
theorem World.only (W : World key) (m : Nat) : ∃ W' : World key, (W'.ex m).st = (W.ex m).st ∧ (W'.ex m).lab = (W.ex m).lab ∧
    (W'.ex m).ev = (W.ex m).ev ∧ (fun i => W'.content i m) = (fun i => W.content i m) ∧ ∀ m', m' ≠ m → ∀ n, (W'.ex m').lab n = .idle := by
  have : ∀ m', ∃ E : Exec (⟨key, W.hash m'⟩ : Config K P), (m' = m → E.st = (W.ex m').st ∧ E.lab = (W.ex m').lab ∧ E.ev = (W.ex m').ev) ∧
      (m' ≠ m → ∀ n, E.lab n = .idle) := by
    intro m'
    by_cases e : m' = m
    · exact ⟨W.ex m', fun _ => ⟨rfl, rfl, rfl⟩, fun h => absurd e h⟩
    · obtain ⟨E, -, h1⟩ := Exec.ofList (cfg := (⟨key, W.hash m'⟩ : Config K P)) (ls := []) trivial
      exact ⟨E, fun h => absurd h e, fun _ n => by rw [h1]; simp⟩
  choose ex hex using this
  obtain ⟨h1, h2, h3⟩ := (hex m).1 rfl
  refine ⟨⟨W.hash, ex, ?_⟩, h1, h2, h3, ?_, fun m' hm => (hex m').2 hm⟩
  · intro i a b ha hb
    have : ∀ c, (ex c).lab i ≠ .idle → c = m := by
      intro c hc
      by_cases e : c = m
      · exact e
      · exact absurd ((hex c).2 e i) hc
    rw [this a ha, this b hb]
  · funext i
    simp only [World.content, Exec.content, h1]

/-- **Refinement** for programs that use only one map: other maps may be updated by anybody meanwhile. -/
theorem World.Runs.means_on {W : World key} {m t i j : Nat} {p : Prog K P α} {a : α} (h : W.Runs t p i j a) (hp : p.On m)
    (hu : W.Undisturbed m t i j) (hempty : p.AsksEmpty → (W.ex m).RemovalsAlone j ∧ W.NoneElse m t i j) :
    ∃ A A', p.Means key A a A' ∧ A m = W.content i m ∧ A' m = W.content j m ∧ ∀ m' k q, A m' k = some q → key q = k := by
  obtain ⟨W', h1, h2, h3, h4, h5⟩ := W.only m
  have hq : ∀ {a b}, W.Quiet t a b → W'.Quiet t a b := by
    intro a b hq n x y m' r
    by_cases e : m' = m
    · subst e; rw [h2]; exact hq n x y m' r
    · rw [h5 m' e]; simp
  have hr : W'.Runs t p i j a := by
    clear hu hempty
    induction h with
    | ret h hq' => exact .ret h (hq hq')
    | @call m0 i id j j' r x k a g1 q1 hc g2 q2 hev hk ih =>
      obtain ⟨rfl, hp⟩ := hp
      exact .call g1 (hq q1) (by rw [h2]; exact hc) g2 (hq q2) (by rw [h3]; exact hev) (ih (hp x))
  refine ⟨W'.content i, W'.content j, hr.means ?_ ?_, congrFun h4 i, congrFun h4 j, fun m' k q e => ((W'.ex m').content_offered e).1⟩
  · intro m'
    by_cases e : m' = m
    · subst e
      exact ⟨by rw [h1]; exact hu.idle, by rw [h1, h2]; exact hu.alone⟩
    · exact ⟨(W'.ex m').idle_run (h5 m' e) _ _, fun n _ _ t' w c hl => by rw [h5 m' e] at hl; cases hl⟩
  · intro ha m'
    by_cases e : m' = m
    · subst e
      exact ⟨⟨by rw [h1]; exact (hempty ha).1.alone, by rw [h1, h2]; exact (hempty ha).1.finished⟩, by unfold World.NoneElse; rw [h1]; exact (hempty ha).2⟩
    · exact ⟨⟨fun n _ t t' c c' hc => (by rw [(W'.ex m').idle_run (h5 m' e)] at hc; cases hc),
        fun n _ t c hl => (by rw [h5 m' e] at hl; cases hl)⟩, fun n _ _ t' c hc => (by rw [(W'.ex m').idle_run (h5 m' e)] at hc; cases hc)⟩

/-- One program after the other. -/
theorem World.Runs.bind {W : World key} {t i j : Nat} {p : Prog K P α} {f : α → Prog K P β} {b : β} (h : W.Runs t (p.bind f) i j b) :
    ∃ a j1, W.Runs t p i j1 a ∧ W.Runs t (f a) j1 j b := by
  induction p generalizing i with
  | ret a => exact ⟨a, i, .ret (Nat.le_refl _) (fun n x y => by omega), h⟩
  | wrong => cases h
  | call m r k ih =>
    simp only [Prog.bind] at h
    cases h with
    | call g1 q1 hc g2 q2 hev hk =>
      obtain ⟨a, j1, k1, k2⟩ := ih _ hk
      exact ⟨a, j1, .call g1 q1 hc g2 q2 hev k1, k2⟩

end Contrie
