import Verif.Proof.Nibs
/-
Structure of the shared memory: paths, abstract content, the memory invariant and its preservation by
the memory effects of the machine.
-/
set_option linter.unusedSectionVars false
namespace Contrie
variable {K P : Type} [DecidableEq K]

/-- The cells of the inner node a word points to. -/
def Mem.cellsOf (m : Mem P) (w : Word) : Option (Fin 16 → Word) :=
  match w.ptr with
  | none => none
  | some a => if w.data then none else match m.mem a with
    | some (.inner c _) => some c
    | _ => none

/-- Follow a path of cell indices starting at a word (marks are ignored). -/
def Mem.follow (m : Mem P) : Word → List (Fin 16) → Option Word
  | w, [] => some w.erase
  | w, i :: r => match m.cellsOf w with
    | none => none
    | some c => Mem.follow m (c i) r

/-- The value bound to `k` according to a word that ends a path (null or data). -/
def Mem.leafVal (cfg : Config K P) (m : Mem P) (k : K) (w : Word) : Option (Option P) :=
  match w.ptr with
  | none => some none
  | some a => if w.data then match m.mem a with
      | some (.data l) => some (l.find? (fun x => decide (cfg.key x = k)))
      | _ => some none
    else none

/-- Look `k` up starting at a word, along a list of nibbles. -/
def Mem.look (cfg : Config K P) (m : Mem P) (k : K) : Word → List (Fin 16) → Option P
  | w, [] => (m.leafVal cfg k w).getD none
  | w, n :: ns => match m.leafVal cfg k w with
    | some v => v
    | none => match m.cellsOf w with
      | none => none
      | some c => Mem.look cfg m k (c n) ns

/-- The abstract map a memory represents. -/
def Mem.abs (cfg : Config K P) (m : Mem P) : AMap K P :=
  fun k => m.look cfg k m.root (nibs (cfg.hash k))

@[simp] theorem erase_ptr (w : Word) : w.erase.ptr = w.ptr := rfl
@[simp] theorem erase_data (w : Word) : w.erase.data = w.data := rfl
@[simp] theorem erase_cond (w : Word) : w.erase.cond = false := rfl
@[simp] theorem erase_erase (w : Word) : w.erase.erase = w.erase := rfl
@[simp] theorem condemn_ptr (w : Word) : w.condemn.ptr = w.ptr := rfl
@[simp] theorem condemn_data (w : Word) : w.condemn.data = w.data := rfl
@[simp] theorem condemn_cond (w : Word) : w.condemn.cond = true := rfl
@[simp] theorem condemn_erase (w : Word) : w.condemn.erase = w.erase := rfl
@[simp] theorem null_ptr : Word.null.ptr = none := rfl
@[simp] theorem null_data : Word.null.data = false := rfl
@[simp] theorem null_cond : Word.null.cond = false := rfl
@[simp] theorem null_erase : Word.null.erase = Word.null := rfl

theorem erase_of_clean {w : Word} (h : w.cond = false) : w.erase = w := by
  cases w; simp_all [Word.erase]

theorem erase_eq_iff {w w' : Word} : w.erase = w'.erase ↔ w.ptr = w'.ptr ∧ w.data = w'.data := by
  cases w; cases w'; simp [Word.erase]

theorem cellsOf_congr {m : Mem P} {w w' : Word} (h : w.erase = w'.erase) : m.cellsOf w = m.cellsOf w' := by
  obtain ⟨h1, h2⟩ := erase_eq_iff.mp h
  simp only [Mem.cellsOf, h1, h2]

theorem leafVal_congr {cfg : Config K P} {m : Mem P} {k : K} {w w' : Word} (h : w.erase = w'.erase) :
    m.leafVal cfg k w = m.leafVal cfg k w' := by
  obtain ⟨h1, h2⟩ := erase_eq_iff.mp h
  simp only [Mem.leafVal, h1, h2]

theorem follow_congr {m : Mem P} {w w' : Word} (h : w.erase = w'.erase) (r : List (Fin 16)) :
    m.follow w r = m.follow w' r := by
  cases r with
  | nil => simp [Mem.follow, h]
  | cons i r => simp [Mem.follow, cellsOf_congr h]

theorem look_congr {cfg : Config K P} {m : Mem P} {k : K} {w w' : Word} (h : w.erase = w'.erase)
    (ns : List (Fin 16)) : m.look cfg k w ns = m.look cfg k w' ns := by
  cases ns with
  | nil => simp [Mem.look, leafVal_congr h]
  | cons i r => simp [Mem.look, leafVal_congr h, cellsOf_congr h]

theorem follow_append {m : Mem P} (w : Word) (q : List (Fin 16)) (i : Fin 16) (r : List (Fin 16)) :
    m.follow w (q ++ i :: r) = match m.follow w q with
      | none => none
      | some w1 => match m.cellsOf w1 with
        | none => none
        | some c => m.follow (c i) r := by
  induction q generalizing w with
  | nil => simp [Mem.follow, cellsOf_congr (erase_erase w)]
  | cons j q ih =>
    simp only [List.cons_append, Mem.follow]
    cases m.cellsOf w with
    | none => rfl
    | some c => exact ih (c j)

theorem follow_erased {m : Mem P} {w w' : Word} {q : List (Fin 16)} (h : m.follow w q = some w') :
    w'.erase = w' := by
  induction q generalizing w with
  | nil => simp [Mem.follow] at h; rw [← h]; rfl
  | cons i q ih =>
    simp only [Mem.follow] at h
    cases hc : m.cellsOf w with
    | none => simp [hc] at h
    | some c => simp [hc] at h; exact ih h

theorem follow_append' {m : Mem P} {w w1 : Word} {q r : List (Fin 16)} (h : m.follow w q = some w1) :
    m.follow w (q ++ r) = m.follow w1 r := by
  cases r with
  | nil => simp [h, Mem.follow, follow_erased h]
  | cons i r => rw [follow_append, h]; rfl

theorem look_follow {cfg : Config K P} {m : Mem P} {k : K} {w w1 : Word} {q ns : List (Fin 16)}
    (h : m.follow w q = some w1) : m.look cfg k w (q ++ ns) = m.look cfg k w1 ns := by
  induction q generalizing w with
  | nil =>
    simp [Mem.follow] at h; subst h
    exact look_congr (by simp) ns
  | cons i q ih =>
    simp only [Mem.follow] at h
    cases hc : m.cellsOf w with
    | none => simp [hc] at h
    | some c =>
      simp only [hc] at h
      have hl : m.leafVal cfg k w = none := by
        simp only [Mem.cellsOf] at hc
        simp only [Mem.leafVal]
        cases hp : w.ptr with
        | none => simp [hp] at hc
        | some a =>
          simp only [hp] at hc
          cases hd : w.data <;> simp [hd] at hc ⊢
      simp only [List.cons_append, Mem.look, hl, hc]
      exact ih h

/-- A data node's items are fit for the path `q`. -/
structure DataOK (cfg : Config K P) (l : List P) (q : List (Fin 16)) : Prop where
  ne : l ≠ []
  pre : ∀ x ∈ l, q <+: nibs (cfg.hash (cfg.key x))
  nodup : (l.map cfg.key).Nodup
  short : l.length = 1 ∨ q.length = 16

/-- A word is fit for the cell at path `q`. -/
def WordOK (cfg : Config K P) (m : Mem P) (w : Word) (q : List (Fin 16)) : Prop :=
  match w.ptr with
  | none => w.data = false
  | some a =>
    if w.data then ∃ l, m.mem a = some (.data l) ∧ DataOK cfg l q
    else ∃ c, m.mem a = some (.inner c q)

theorem WordOK.congr {cfg : Config K P} {m : Mem P} {w w' : Word} {q : List (Fin 16)} (h : w.erase = w'.erase)
    (hw : WordOK cfg m w q) : WordOK cfg m w' q := by
  obtain ⟨h1, h2⟩ := erase_eq_iff.mp h
  simpa only [WordOK, h1, h2] using hw

theorem WordOK.null (cfg : Config K P) (m : Mem P) (q : List (Fin 16)) : WordOK cfg m Word.null q := by
  simp [WordOK]

theorem WordOK.of_data {cfg : Config K P} {m : Mem P} {w : Word} {q : List (Fin 16)} {a : Nat}
    (h : WordOK cfg m w q) (hp : w.ptr = some a) (hd : w.data = true) :
    ∃ l, m.mem a = some (.data l) ∧ DataOK cfg l q := by
  simpa [WordOK, hp, hd] using h

theorem WordOK.of_inner {cfg : Config K P} {m : Mem P} {w : Word} {q : List (Fin 16)} {a : Nat}
    (h : WordOK cfg m w q) (hp : w.ptr = some a) (hd : w.data = false) :
    ∃ c, m.mem a = some (.inner c q) := by
  simpa [WordOK, hp, hd] using h

theorem WordOK.cellsOf {cfg : Config K P} {m : Mem P} {w : Word} {q : List (Fin 16)} {c : Fin 16 → Word}
    (h : WordOK cfg m w q) (hc : m.cellsOf w = some c) :
    ∃ a, w.ptr = some a ∧ w.data = false ∧ m.mem a = some (.inner c q) := by
  simp only [Mem.cellsOf] at hc
  cases hp : w.ptr with
  | none => simp [hp] at hc
  | some a =>
    simp only [hp] at hc
    cases hd : w.data with
    | true => simp [hd] at hc
    | false =>
      obtain ⟨c', hc'⟩ := h.of_inner hp hd
      simp [hd, hc'] at hc
      subst hc
      exact ⟨a, rfl, rfl, hc'⟩

theorem cellsOf_inner {m : Mem P} {w : Word} {a : Nat} {c : Fin 16 → Word} {q : List (Fin 16)}
    (hp : w.ptr = some a) (hd : w.data = false) (hm : m.mem a = some (.inner c q)) :
    m.cellsOf w = some c := by
  simp [Mem.cellsOf, hp, hd, hm]

theorem leafVal_null {cfg : Config K P} {m : Mem P} {k : K} {w : Word} (hp : w.ptr = none) :
    m.leafVal cfg k w = some none := by simp [Mem.leafVal, hp]

theorem leafVal_data {cfg : Config K P} {m : Mem P} {k : K} {w : Word} {a : Nat} {l : List P} (hp : w.ptr = some a)
    (hd : w.data = true) (hm : m.mem a = some (.data l)) :
    m.leafVal cfg k w = some (l.find? (fun x => decide (cfg.key x = k))) := by
  simp [Mem.leafVal, hp, hd, hm]

theorem leafVal_inner {cfg : Config K P} {m : Mem P} {k : K} {w : Word} {a : Nat} (hp : w.ptr = some a)
    (hd : w.data = false) : m.leafVal cfg k w = none := by
  simp [Mem.leafVal, hp, hd]

theorem look_leaf {cfg : Config K P} {m : Mem P} {k : K} {w : Word} {v : Option P} (ns : List (Fin 16))
    (h : m.leafVal cfg k w = some v) : m.look cfg k w ns = v := by
  cases ns <;> simp [Mem.look, h]

/-- The memory invariant. `A τ` is the abstract map at instant `τ`. -/
structure MemInv (cfg : Config K P) (A : Nat → AMap K P) (m : Mem P) : Prop where
  rootOK : WordOK cfg m m.root []
  rootClean : m.root.cond = false
  nodeOK : ∀ a c p, m.mem a = some (.inner c p) → p.length < 16 ∧ ∀ i, WordOK cfg m (c i) (p ++ [i])
  fresh : ∀ a, m.next ≤ a → m.mem a = none
  /-- every published node that was not retired is linked -/
  linked : ∀ a n, m.mem a = some n → m.retired a = none →
    ∃ q w, m.follow m.root q = some w ∧ w.ptr = some a
  /-- nothing linked is retired -/
  live : ∀ q w a, m.follow m.root q = some w → w.ptr = some a → m.retired a = none
  /-- the cells of a retired inner node are all condemned -/
  frozen : ∀ a c p τ, m.mem a = some (.inner c p) → m.retired a = some τ → ∀ i, (c i).cond = true
  /-- a retired inner node tells the truth about the instant of its retirement -/
  hind : ∀ a c p τ, m.mem a = some (.inner c p) → m.retired a = some τ → ∀ i k v,
    p ++ [i] <+: nibs (cfg.hash k) → m.leafVal cfg k (c i) = some v → A τ k = v
  hindPtr : ∀ a c p τ, m.mem a = some (.inner c p) → m.retired a = some τ → ∀ i b τ',
    (c i).ptr = some b → m.retired b = some τ' → τ ≤ τ'
  retTime : ∀ a τ, m.retired a = some τ → τ < m.clock ∧ m.mem a ≠ none
  freedRet : ∀ a, m.freed a = true → ∃ τ, m.retired a = some τ

theorem MemInv.init (cfg : Config K P) (A : Nat → AMap K P) : MemInv cfg A (Mem.init : Mem P) where
  rootOK := by simp [Mem.init, WordOK]
  rootClean := rfl
  nodeOK := by simp [Mem.init]
  fresh := by simp [Mem.init]
  linked := by simp [Mem.init]
  live := by simp [Mem.init]
  frozen := by simp [Mem.init]
  hind := by simp [Mem.init]
  hindPtr := by simp [Mem.init]
  retTime := by simp [Mem.init]
  freedRet := by simp [Mem.init]

theorem MemInv.follow_ok {cfg : Config K P} {A : Nat → AMap K P} {m : Mem P} (h : MemInv cfg A m)
    {w w' : Word} {q0 q : List (Fin 16)} (hw : WordOK cfg m w q0) (hf : m.follow w q = some w') :
    WordOK cfg m w' (q0 ++ q) := by
  induction q generalizing w q0 with
  | nil =>
    simp [Mem.follow] at hf
    subst hf
    simpa using hw.congr (by simp)
  | cons i q ih =>
    simp only [Mem.follow] at hf
    cases hc : m.cellsOf w with
    | none => simp [hc] at hf
    | some c =>
      simp only [hc] at hf
      obtain ⟨a, -, -, hm⟩ := hw.cellsOf hc
      have := ih ((h.nodeOK a c q0 hm).2 i) hf
      simpa using this

theorem MemInv.path_ok {cfg : Config K P} {A : Nat → AMap K P} {m : Mem P} (h : MemInv cfg A m)
    {w : Word} {q : List (Fin 16)} (hf : m.follow m.root q = some w) : WordOK cfg m w q := by
  simpa using h.follow_ok h.rootOK hf

/-- Every published inner node that is not retired sits at its path. -/
theorem MemInv.inner_at {cfg : Config K P} {A : Nat → AMap K P} {m : Mem P} (h : MemInv cfg A m)
    {a : Nat} {c : Fin 16 → Word} {p : List (Fin 16)} (hm : m.mem a = some (.inner c p))
    (hr : m.retired a = none) : m.follow m.root p = some ⟨some a, false, false⟩ := by
  obtain ⟨q, w, hf, hp⟩ := h.linked a _ hm hr
  have hw := h.path_ok hf
  have he := follow_erased hf
  cases hd : w.data with
  | true =>
    obtain ⟨l, hl, -⟩ := hw.of_data hp hd
    rw [hm] at hl; cases hl
  | false =>
    obtain ⟨c', hc'⟩ := hw.of_inner hp hd
    rw [hm] at hc'; cases hc'
    rw [hf]; congr 1
    cases w; simp_all [Word.erase]

/-- Two paths to the same node are equal. -/
theorem MemInv.path_unique {cfg : Config K P} {A : Nat → AMap K P} {m : Mem P} (h : MemInv cfg A m)
    {w w' : Word} {q r : List (Fin 16)} {a : Nat} (hf : m.follow m.root q = some w)
    (hf' : m.follow m.root r = some w') (hp : w.ptr = some a) (hp' : w'.ptr = some a) : q = r := by
  have hw := h.path_ok hf
  have hw' := h.path_ok hf'
  cases hd : w.data with
  | false =>
    obtain ⟨c, hc⟩ := hw.of_inner hp hd
    cases hd' : w'.data with
    | true => obtain ⟨l, hl, -⟩ := hw'.of_data hp' hd'; rw [hc] at hl; cases hl
    | false => obtain ⟨c', hc'⟩ := hw'.of_inner hp' hd'; rw [hc] at hc'; cases hc'; rfl
  | true =>
    obtain ⟨l, hl, hok⟩ := hw.of_data hp hd
    cases hd' : w'.data with
    | false => obtain ⟨c, hc⟩ := hw'.of_inner hp' hd'; rw [hl] at hc; cases hc
    | true =>
      obtain ⟨l', hl', hok'⟩ := hw'.of_data hp' hd'
      rw [hl] at hl'; cases hl'
      obtain ⟨x, hx⟩ := List.exists_mem_of_ne_nil l hok.ne
      -- a data word stops every longer path
      have key : ∀ {q r : List (Fin 16)} {w w' : Word}, w.data = true → m.follow m.root q = some w →
          m.follow m.root r = some w' → q <+: r → q = r := by
        intro q r w w' hd hf hf' hqr
        obtain ⟨t, rfl⟩ := hqr
        rw [follow_append' hf] at hf'
        cases t with
        | nil => simp
        | cons i t =>
          simp only [Mem.follow] at hf'
          have : m.cellsOf w = none := by
            simp only [Mem.cellsOf]; cases w.ptr <;> simp [hd]
          simp [this] at hf'
      rcases List.prefix_or_prefix_of_prefix (hok.pre x hx) (hok'.pre x hx) with hqr | hqr
      · exact key hd hf hf' hqr
      · exact (key hd' hf' hf hqr).symm

end Contrie
