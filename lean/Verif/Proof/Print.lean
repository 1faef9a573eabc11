import Verif.Model.Print
import Verif.Proof.WildLive
/-
`PrintShape`: memory safety, with weak memory and misbehaving user code.
-/
set_option linter.unusedSectionVars false
namespace Contrie
variable {K P : Type} [DecidableEq K]
open scoped List

/-! ### The text -/

/-- The text of a tree for each cell that remains to be printed. -/
inductive Completes : List (Todo P) → List (Tok P) → Prop
  | nil : Completes [] []
  | text (x : Tok P) {l : List (Todo P)} {c : List (Tok P)} (h : Completes l c) : Completes (.text x :: l) (x :: c)
  | cell (ℓ : Loc) (T : PTree P) {l : List (Todo P)} {c : List (Tok P)} (h : Completes l c) : Completes (.cell ℓ :: l) (T.toks ++ c)

theorem Completes.split {l l' : List (Todo P)} : ∀ {c : List (Tok P)}, Completes (l ++ l') c → ∃ c1 c2, c = c1 ++ c2 ∧ Completes l c1 ∧ Completes l' c2 := by
  induction l with
  | nil => intro c h; exact ⟨[], c, rfl, .nil, h⟩
  | cons x l ih =>
    intro c h
    cases h with
    | text x h =>
      obtain ⟨c1, c2, rfl, h1, h2⟩ := ih h
      exact ⟨_ :: c1, c2, rfl, .text _ h1, h2⟩
    | cell ℓ T h =>
      obtain ⟨c1, c2, rfl, h1, h2⟩ := ih h
      exact ⟨T.toks ++ c1, c2, by simp, .cell ℓ T h1, h2⟩

theorem Completes.loop {a : Nat} {c : List (Tok P)} (h : Completes (loopOver a) c) :
    ∃ sub : Fin 16 → PTree P, c = (List.finRange 16).flatMap (fun i => Tok.idx i :: (sub i).toks) ++ [.closing] := by
  obtain ⟨c1, c2, rfl, h1, h2⟩ := h.split
  cases h2 with
  | text x h2 =>
    cases h2
    have key : ∀ l : List (Fin 16), l.Nodup → ∀ c1, Completes (l.flatMap (fun i => [Todo.text (.idx i), .cell (.slot a i)])) c1 →
        ∃ sub : Fin 16 → PTree P, c1 = l.flatMap (fun i => Tok.idx i :: (sub i).toks) := by
      intro l
      induction l with
      | nil => intro _ c1 h; cases h; exact ⟨fun _ => .null Word.null, rfl⟩
      | cons i l ih =>
        intro hn c1 h
        simp only [List.flatMap_cons, List.cons_append, List.nil_append] at h
        cases h with
        | text _ h =>
          cases h with
          | cell _ T h =>
            have hn := List.nodup_cons.1 hn
            obtain ⟨sub, rfl⟩ := ih hn.2 _ h
            refine ⟨upd sub i T, ?_⟩
            simp only [List.flatMap_cons, upd_same, List.cons_append]
            congr 2
            simp only [List.flatMap_def]
            congr 1
            refine List.map_congr_left (fun j hj => ?_)
            rw [upd_other]
            rintro rfl; exact hn.1 hj
    obtain ⟨sub, rfl⟩ := key _ (List.nodup_finRange 16) _ h1
    exact ⟨sub, rfl⟩

/-- The output is part of the text of a tree. -/
theorem Prints.text {mem : Nat → Mem P} {s : Nat} {V : Loc → Nat} {n : Nat} {x : Printer P} (h : Prints mem s V n x) (hf : x.failed = none) :
    ∀ c, Completes x.todo c → ∃ T : PTree P, x.out ++ c = T.toks := by
  induction h with
  | start =>
    intro c h
    cases h with
    | cell _ T h => cases h; exact ⟨T, by simp⟩
  | wait h ih => exact ih hf
  | @write n x k rest h hf' ht ih =>
    intro c hc
    obtain ⟨T, hT⟩ := ih hf' (k :: c) (by rw [ht]; exact .text k hc)
    exact ⟨T, by simpa using hT⟩
  | crash h hf' ht hm ih => cases hf
  | @load n τ x ℓ w rest h hf' ht hm hτ hv hw ih =>
    intro c hc
    simp only [Printer.load] at hf hc ⊢
    cases hp : printWord (mem n) w with
    | error f => rw [hp] at hf; cases hf
    | ok r =>
      obtain ⟨out, todo⟩ := r
      rw [hp] at hc
      simp only at hc ⊢
      obtain ⟨c1, c2, rfl, h1, h2⟩ := hc.split
      have fin : ∀ T : PTree P, out ++ c1 = T.toks → ∃ T : PTree P, x.out ++ out ++ (c1 ++ c2) = T.toks := by
        intro T hT
        obtain ⟨T', hT'⟩ := ih hf' (T.toks ++ c2) (by rw [ht]; exact .cell ℓ T h2)
        exact ⟨T', by rw [← hT', ← hT]; simp⟩
      simp only [printWord] at hp
      split at hp
      · cases hp
        cases h1
        exact fin (.null w) rfl
      · split at hp
        · split at hp
          · cases hp
          · cases hp
            cases h1
            exact fin (.leaf w _) rfl
        · split at hp
          · cases hp
            obtain ⟨sub, rfl⟩ := h1.loop
            exact fin (.node w sub) (by simp [PTree.toks])
          · cases hp

/-! ### How long it takes -/

/-- The depth of a cell. -/
def dep (m : Mem P) : Loc → Nat
  | .root => 0
  | .slot a _ => match m.mem a with
    | some (.inner _ p) => p.length + 1
    | _ => 0

/-- The number of cells of a tree of height `f`: `1 + 16 + … + 16 ^ f`. -/
def cellsOfHeight (f : Nat) : Nat := (16 ^ (f + 1) - 1) / 15

theorem pow_form (f : Nat) : ∃ k, 16 ^ f = 15 * k + 1 := by
  induction f with
  | zero => exact ⟨0, rfl⟩
  | succ f ih => obtain ⟨k, hk⟩ := ih; exact ⟨16 * k + 1, by rw [Nat.pow_succ, hk]; omega⟩

theorem cells_zero : cellsOfHeight 0 = 1 := rfl
theorem cells_succ (f : Nat) : cellsOfHeight (f + 1) = 1 + 16 * cellsOfHeight f := by
  obtain ⟨k, hk⟩ := pow_form (f + 1)
  simp only [cellsOfHeight]
  rw [Nat.pow_succ, hk]
  omega
theorem cells_pos (f : Nat) : 1 ≤ cellsOfHeight f := by
  cases f with
  | zero => exact Nat.le_refl _
  | succ f => rw [cells_succ]; omega

/-- The loads that remain. -/
def loadsLeft (m : Mem P) : List (Todo P) → Nat
  | [] => 0
  | .text _ :: l => loadsLeft m l
  | .cell ℓ :: l => cellsOfHeight (16 - dep m ℓ) + loadsLeft m l

theorem loadsLeft_append (m : Mem P) (l l' : List (Todo P)) : loadsLeft m (l ++ l') = loadsLeft m l + loadsLeft m l' := by
  induction l with
  | nil => simp [loadsLeft]
  | cons x l ih => cases x <;> simp only [List.cons_append, loadsLeft, ih] <;> omega

theorem loadsLeft_loop (m : Mem P) {a : Nat} {c : Fin 16 → Word} {p : List (Fin 16)} (hm : m.mem a = some (.inner c p)) :
    loadsLeft m (loopOver a : List (Todo P)) = 16 * cellsOfHeight (16 - (p.length + 1)) := by
  have key : ∀ l : List (Fin 16), loadsLeft m (l.flatMap (fun i => [Todo.text (.idx i), .cell (.slot a i)])) = l.length * cellsOfHeight (16 - (p.length + 1)) := by
    intro l
    induction l with
    | nil => simp [loadsLeft]
    | cons i l ih =>
      simp only [List.flatMap_cons, List.cons_append, List.nil_append, loadsLeft, ih, List.length_cons, dep, hm, Nat.succ_mul]
      omega
  rw [loopOver, loadsLeft_append, key]
  simp [loadsLeft]

theorem loadsLeft_congr {m m' : Mem P} {l : List (Todo P)} (h : ∀ ℓ, Todo.cell ℓ ∈ l → dep m' ℓ = dep m ℓ) : loadsLeft m' l = loadsLeft m l := by
  induction l with
  | nil => rfl
  | cons x l ih =>
    have := ih (fun ℓ hℓ => h ℓ (List.mem_cons_of_mem _ hℓ))
    cases x with
    | text k => simpa [loadsLeft] using this
    | cell ℓ => simp only [loadsLeft, this, h ℓ List.mem_cons_self]

/-- The texts that remain. -/
def textsLeft : List (Todo P) → Nat
  | [] => 0
  | .text _ :: l => 1 + textsLeft l
  | .cell _ :: l => textsLeft l

theorem textsLeft_append (l l' : List (Todo P)) : textsLeft (l ++ l') = textsLeft l + textsLeft l' := by
  induction l with
  | nil => simp [textsLeft]
  | cons x l ih => cases x <;> simp only [List.cons_append, textsLeft, ih] <;> omega

theorem textsLeft_loop (a : Nat) : textsLeft (loopOver a : List (Todo P)) = 17 := by
  rw [loopOver, textsLeft_append]
  have key : ∀ l : List (Fin 16), textsLeft (l.flatMap (fun i => [Todo.text (.idx i), .cell (.slot a i)]) : List (Todo P)) = l.length := by
    intro l
    induction l with
    | nil => rfl
    | cons i l ih => simp only [List.flatMap_cons, List.cons_append, List.nil_append, textsLeft, ih, List.length_cons]; omega
  rw [key]
  simp [textsLeft]

theorem Prints.texts {mem : Nat → Mem P} {s : Nat} {V : Loc → Nat} {n : Nat} {x : Printer P} (h : Prints mem s V n x) :
    x.out.length + textsLeft x.todo ≤ 19 * x.loads := by
  induction h with
  | start => simp [textsLeft]
  | wait h ih => exact ih
  | write h hf ht ih =>
    rw [ht] at ih
    simp only [textsLeft, List.length_append, List.length_singleton] at ih ⊢
    omega
  | crash h hf ht hm ih => exact ih
  | @load n τ x ℓ w rest h hf ht hm hτ hv hw ih =>
    rw [ht] at ih
    simp only [textsLeft] at ih
    simp only [Printer.load]
    split
    · simp only [ht, textsLeft]; exact ih
    · next out todo hp =>
      simp only [List.length_append, textsLeft_append]
      have : out.length + textsLeft todo ≤ 19 := by
        simp only [printWord] at hp
        split at hp
        · cases hp; simp [textsLeft]
        · split at hp
          · split at hp
            · cases hp
            · cases hp; simp [textsLeft]
          · split at hp
            · cases hp; rw [textsLeft_loop]; simp
            · cases hp
      omega

/-! ### Safety -/

namespace WExec
variable (E : WExec K P)

/-- The invariant of a printer. -/
structure PrintInv (t s n : Nat) (x : Printer P) : Prop where
  ok : x.failed = none
  le : ∀ ℓ, x.view ℓ ≤ n
  ge : ∀ ℓ, E.V t s ℓ ≤ x.view ℓ
  cells : ∀ ℓ, .cell ℓ ∈ x.todo → (∃ q, WReached E.M n (E.V t s) x.view q ℓ) ∧ ∀ a i, ℓ = .slot a i → WSeen E.M n (E.V t s) a
  left : x.loads + loadsLeft (E.M n) x.todo ≤ cellsOfHeight 16

theorem dep_evo {n : Nat} (hn : n < E.len) {q : List (Fin 16)} {V0 V : Loc → Nat} (hV : ∀ ℓ, V ℓ ≤ n) {ℓ : Loc} (h : WReached E.M n V0 V q ℓ) :
    dep (E.M (n + 1)) ℓ = dep (E.M n) ℓ := by
  have H := (E.winv (Nat.succ_le_of_lt hn)).hist
  have hl := h.chain.hlocAt (H.mono (Nat.le_succ n)) hV
  cases ℓ with
  | root => rfl
  | slot a i =>
    obtain ⟨c, p, h1, -, -⟩ := hl
    obtain ⟨c', h2, -⟩ := H.inner (Nat.le_succ n) (Nat.le_refl _) h1
    simp only [dep, h1, h2]

theorem PrintInv.wait {t s n : Nat} {x : Printer P} (h : E.PrintInv t s n x) (hn : n < E.len) : E.PrintInv t s (n + 1) x where
  ok := h.ok
  le := fun ℓ => Nat.le_succ_of_le (h.le ℓ)
  ge := h.ge
  cells := by
    intro ℓ hℓ
    obtain ⟨⟨q, h1⟩, h2⟩ := h.cells ℓ hℓ
    exact ⟨⟨q, h1.mono (fun _ => Nat.le_refl _) (Nat.le_succ _)⟩, fun a i e => (h2 a i e).mono (Nat.le_succ _)⟩
  left := by
    rw [loadsLeft_congr (m := E.M n)]
    · exact h.left
    · intro ℓ hℓ
      obtain ⟨⟨q, h1⟩, -⟩ := h.cells ℓ hℓ
      exact E.dep_evo hn h.le h1

/-- The cell to be loaded next is there. -/
theorem PrintInv.there {t s n : Nat} {x : Printer P} (h : E.PrintInv t s n x) (hn : n ≤ E.len) (hs : s ≤ n) {p : Nat}
    (hp : ∀ i, s ≤ i → i ≤ n → ((E.st i).thr t).pin = some p) {ℓ : Loc} (hℓ : .cell ℓ ∈ x.todo) :
    (∃ w, (E.st n).m.read ℓ = some w) ∧ ∃ q, WReached E.M n (E.V t s) x.view q ℓ ∧ LocAt (E.M n) 0 ℓ q := by
  have hI := E.winv hn
  obtain ⟨⟨q, h1⟩, h2⟩ := h.cells ℓ hℓ
  have hl := h1.chain.hlocAt hI.hist h.le
  refine ⟨?_, q, h1, hl⟩
  cases ℓ with
  | root => exact ⟨_, rfl⟩
  | slot a i =>
    obtain ⟨c, q', h3, -, -⟩ := hl
    have hps := ((E.winv (Nat.le_trans hs hn)).sess t).pinlt p (hp s (Nat.le_refl _) hs)
    have hf := hI.alive E hn (hp n hs (Nat.le_refl _)) ((h2 a i rfl).anti (E.V_mono t (by omega) (Nat.le_trans hs hn)))
    have h3' : (E.st n).m.mem a = some (.inner c q') := h3
    exact ⟨c i, by simp [Mem.read, Mem.deref, hf, h3']⟩

/-- What a load may find. -/
theorem PrintInv.loaded {t s n : Nat} {x : Printer P} (h : E.PrintInv t s n x) (hn : n ≤ E.len) (hs : s ≤ n) {p : Nat}
    (hp : ∀ i, s ≤ i → i ≤ n → ((E.st i).thr t).pin = some p) {ℓ : Loc} (hℓ : .cell ℓ ∈ x.todo) {τ : Nat} {w : Word} (hτ : τ ≤ n)
    (hv : x.view ℓ ≤ τ) (hw : (E.st τ).m.read ℓ = some w) : ∃ q σ, LocAt (E.M n) 0 ℓ q ∧ WLearnt E.M n (E.V t s) (upd x.view ℓ τ) q ℓ w τ σ ∧
      HWordOK (E.M n) w q ∧ ∀ a, w.ptr = some a → (E.st n).m.freed a = false := by
  have hI := E.winv hn
  have H := hI.hist
  obtain ⟨-, q, hr, hl⟩ := h.there E hn hs hp hℓ
  have hrdM : (E.M τ).read ℓ = some w := by
    simp only [M]
    rw [← thaw_read]
    · exact hw
    · intro a hna
      cases ℓ with
      | root => cases hna
      | slot b i =>
        cases hna
        cases hf : (E.st τ).m.freed a with
        | false => rfl
        | true => simp [Mem.read, Mem.deref, hf] at hw
  have hat := H.at_read hτ hl hrdM
  have hok : HWordOK (E.M n) w q := H.wordOK hτ (Nat.le_refl n) ((H.inv τ hτ).at_ok hat)
  have hmono : ∀ ℓ', x.view ℓ' ≤ upd x.view ℓ τ ℓ' := by
    intro ℓ'
    by_cases e : ℓ' = ℓ
    · subst e; rw [upd_same]; exact hv
    · rw [upd_other _ _ e]; exact Nat.le_refl _
  obtain ⟨σ, hlearn⟩ := hr.read H h.le (V' := upd x.view ℓ τ) hmono hv hτ (by rw [upd_same]; exact Nat.le_refl _) hat
  refine ⟨q, σ, hl, hlearn, hok, fun a ha => ?_⟩
  have hps := ((E.winv (Nat.le_trans hs hn)).sess t).pinlt p (hp s (Nat.le_refl _) hs)
  exact hI.alive E hn (hp n hs (Nat.le_refl _)) ((hlearn.seen H hτ ha).anti (E.V_mono t (by omega) (Nat.le_trans hs hn)))

theorem PrintInv.load {t s n : Nat} {x : Printer P} (h : E.PrintInv t s n x) (hn : n ≤ E.len) (hs : s ≤ n) {p : Nat}
    (hp : ∀ i, s ≤ i → i ≤ n → ((E.st i).thr t).pin = some p) {ℓ : Loc} {rest : List (Todo P)} (ht : x.todo = .cell ℓ :: rest) {τ : Nat} {w : Word} (hτ : τ ≤ n)
    (hv : x.view ℓ ≤ τ) (hw : (E.st τ).m.read ℓ = some w) : E.PrintInv t s n (x.load (E.st n).m rest ℓ w τ) := by
  have hI := E.winv hn
  obtain ⟨q, σ, hl, hlearn, hok, hfr⟩ := h.loaded E hn hs hp (by rw [ht]; exact List.mem_cons_self) hτ hv hw
  have hmono : ∀ ℓ', x.view ℓ' ≤ upd x.view ℓ τ ℓ' := by
    intro ℓ'
    by_cases e : ℓ' = ℓ
    · subst e; rw [upd_same]; exact hv
    · rw [upd_other _ _ e]; exact Nat.le_refl _
  have hle : ∀ ℓ', upd x.view ℓ τ ℓ' ≤ n := by
    intro ℓ'
    by_cases e : ℓ' = ℓ
    · subst e; rw [upd_same]; exact hτ
    · rw [upd_other _ _ e]; exact h.le ℓ'
  have hrest : ∀ ℓ', .cell ℓ' ∈ rest → (∃ q, WReached E.M n (E.V t s) (upd x.view ℓ τ) q ℓ') ∧ ∀ a i, ℓ' = .slot a i → WSeen E.M n (E.V t s) a := by
    intro ℓ' h'
    obtain ⟨⟨q', h1⟩, h2⟩ := h.cells ℓ' (by rw [ht]; exact List.mem_cons_of_mem _ h')
    exact ⟨⟨q', h1.mono hmono (Nat.le_refl _)⟩, h2⟩
  have hleft := h.left
  rw [ht, loadsLeft] at hleft
  have hone := cells_pos (16 - dep (E.M n) ℓ)
  have easy : ∀ out : List (Tok P), E.PrintInv t s n ⟨[] ++ rest, x.out ++ out, upd x.view ℓ τ, x.loads + 1, x.failed⟩ := by
    intro out
    exact ⟨h.ok, hle, fun ℓ' => Nat.le_trans (h.ge ℓ') (hmono ℓ'), hrest, by simp only [List.nil_append]; omega⟩
  simp only [Printer.load, printWord]
  cases hw' : w.ptr with
  | none => exact easy _
  | some a =>
    simp only
    cases hd : w.data with
    | true =>
      have hf := hfr a hw'
      simp only [HWordOK, hw', hd, if_true] at hok
      obtain ⟨l, h1, -⟩ := hok
      have h1' : (E.st n).m.mem a = some (.data l) := h1
      have : (E.st n).m.loadData w = .ok l := by simp [Mem.loadData, hd, hw', Mem.deref, hf, h1']
      simp only [if_true, this]
      exact easy _
    | false =>
      have hf := hfr a hw'
      have hok' := hok
      simp only [HWordOK, hw', hd, Bool.false_eq_true, if_false] at hok
      obtain ⟨c, h1⟩ := hok
      have h1' : (E.st n).m.mem a = some (.inner c q) := h1
      have : (E.st n).m.deref a = some (.inner c q) := by simp [Mem.deref, hf, h1']
      simp only [Bool.false_eq_true, if_false, this]
      refine ⟨h.ok, hle, fun ℓ' => Nat.le_trans (h.ge ℓ') (hmono ℓ'), ?_, ?_⟩
      · intro ℓ' h'
        rcases List.mem_append.1 h' with h' | h'
        · have : ∃ i, ℓ' = .slot a i := by
            simp only [loopOver, List.mem_append, List.mem_flatMap, List.mem_cons, List.not_mem_nil, or_false, reduceCtorEq, false_or,
              Todo.cell.injEq] at h'
            obtain ⟨i, -, rfl⟩ := h'
            exact ⟨i, rfl⟩
          obtain ⟨i, rfl⟩ := this
          refine ⟨⟨_, hlearn.wdown a i hw' hd⟩, ?_⟩
          intro a' i' e
          cases e
          exact hlearn.seen hI.hist hτ hw'
        · exact hrest ℓ' h'
      · rw [loadsLeft_append, loadsLeft_loop _ h1]
        have hlen := ((hI.hist.inv n (Nat.le_refl _)).nodeOK a c q h1).1
        have hdep : dep (E.M n) ℓ = q.length := by
          cases ℓ with
          | root =>
            have : q = [] := hl
            simp [dep, this]
          | slot b i =>
            obtain ⟨c', p', g1, g2, -⟩ := hl
            simp [dep, g1, g2]
        rw [hdep] at hleft
        obtain ⟨f, hf⟩ : ∃ f, 16 - q.length = f + 1 := ⟨16 - q.length - 1, by omega⟩
        have : 16 - (q.length + 1) = f := by omega
        rw [hf, cells_succ] at hleft
        rw [this]
        show x.loads + 1 + _ ≤ _
        omega

theorem _root_.Contrie.Prints.ge {mem : Nat → Mem P} {s : Nat} {V : Loc → Nat} {n : Nat} {x : Printer P} (h : Prints mem s V n x) : s ≤ n := by
  induction h with
  | start => exact Nat.le_refl _
  | wait h ih => omega
  | write h hf ht ih => exact ih
  | crash h hf ht hm ih => exact ih
  | load h hf ht hm hτ hv hw ih => exact ih

/-- The invariant holds. -/
theorem printInv {t s n : Nat} {x : Printer P} (h : E.PrintsShape t s n x) : E.PrintInv t s n x := by
  obtain ⟨hn, ⟨p, hp⟩, hr⟩ := h
  induction hr with
  | start =>
    refine ⟨rfl, fun ℓ => E.V_le hn t ℓ, fun ℓ => Nat.le_refl _, ?_, ?_⟩
    · intro ℓ hℓ
      simp only [List.mem_singleton, Todo.cell.injEq] at hℓ
      subst hℓ
      exact ⟨⟨[], WReached.root (fun _ => Nat.le_refl _)⟩, fun a i e => by cases e⟩
    · simp only [loadsLeft, Nat.zero_add, Nat.add_zero]
      exact Nat.le_of_eq (congrArg cellsOfHeight (by simp [dep]))
  | wait h ih => exact (ih (by omega) (fun i h1 h2 => hp i h1 (by omega))).wait E (by omega)
  | @write n x k rest h hf ht ih =>
    have h1 := ih hn hp
    refine ⟨hf, h1.le, h1.ge, fun ℓ hℓ => h1.cells ℓ (by rw [ht]; exact List.mem_cons_of_mem _ hℓ), ?_⟩
    have := h1.left
    rw [ht, loadsLeft] at this
    exact this
  | @crash n x ℓ rest h hf ht hm ih =>
    obtain ⟨⟨w, hw⟩, -⟩ := (ih hn hp).there E hn h.ge hp (ℓ := ℓ) (by rw [ht]; exact List.mem_cons_self)
    simp only [hw] at hm
    cases hm
  | @load n τ x ℓ w rest h hf ht hm hτ hv hw ih => exact (ih hn hp).load E hn h.ge hp ht hτ hv hw

end WExec
end Contrie
