import Verif.Proof.Print
import Verif.Proof.CohLin
import Verif.Proof.CohMain
import Verif.Proof.Tidy
/-
`PrintShape`: what the output says, if user code behaves.
-/
set_option linter.unusedSectionVars false
namespace Contrie
variable {K P : Type} [DecidableEq K]
open scoped List

/-- The path of a cell. -/
def pathOf (m : Mem P) : Loc → List (Fin 16)
  | .root => []
  | .slot a i => match m.mem a with
    | some (.inner _ p) => p ++ [i]
    | _ => []

/-- The number of cells that remain to be printed on the way given by a hash. -/
def onWay (m : Mem P) (h : List (Fin 16)) : List (Todo P) → Nat
  | [] => 0
  | .text _ :: l => onWay m h l
  | .cell ℓ :: l => (if pathOf m ℓ <+: h then 1 else 0) + onWay m h l

theorem onWay_append (m : Mem P) (h : List (Fin 16)) (l l' : List (Todo P)) : onWay m h (l ++ l') = onWay m h l + onWay m h l' := by
  induction l with
  | nil => simp [onWay]
  | cons x l ih => cases x <;> simp only [List.cons_append, onWay, ih] <;> omega

theorem onWay_congr {m m' : Mem P} {h : List (Fin 16)} {l : List (Todo P)} (hc : ∀ ℓ, Todo.cell ℓ ∈ l → pathOf m' ℓ = pathOf m ℓ) :
    onWay m' h l = onWay m h l := by
  induction l with
  | nil => rfl
  | cons x l ih =>
    have := ih (fun ℓ hℓ => hc ℓ (List.mem_cons_of_mem _ hℓ))
    cases x with
    | text k => simpa [onWay] using this
    | cell ℓ => simp only [onWay, this, hc ℓ List.mem_cons_self]

theorem onWay_loop {m : Mem P} {h : List (Fin 16)} {a : Nat} {c : Fin 16 → Word} {p : List (Fin 16)} (hm : m.mem a = some (.inner c p))
    (hp : p.length < h.length) : onWay m h (loopOver a : List (Todo P)) = if p <+: h then 1 else 0 := by
  have key : ∀ l : List (Fin 16), onWay m h (l.flatMap (fun i => [Todo.text (.idx i), .cell (.slot a i)])) = (l.filter (fun i => decide (p ++ [i] <+: h))).length := by
    intro l
    induction l with
    | nil => rfl
    | cons i l ih =>
      simp only [List.flatMap_cons, List.cons_append, List.nil_append, onWay, ih, pathOf, hm, List.filter_cons, decide_eq_true_eq]
      split <;> simp <;> omega
  rw [loopOver, onWay_append, key]
  simp only [onWay, Nat.add_zero]
  by_cases hpre : p <+: h
  · simp only [hpre, if_true]
    obtain ⟨r, rfl⟩ := hpre
    cases r with
    | nil => simp at hp
    | cons j r =>
      have : (List.finRange 16).filter (fun i => decide (p ++ [i] <+: p ++ j :: r)) = [j] := by
        have e : (fun i : Fin 16 => decide (p ++ [i] <+: p ++ j :: r)) = (fun i => i == j) := by
          funext i
          rw [Bool.eq_iff_iff]
          simp only [decide_eq_true_eq, List.prefix_append_right_inj, List.cons_prefix_cons, List.nil_prefix, and_true, beq_iff_eq]
        rw [e]
        clear e key hp
        revert j; decide
      rw [this]; rfl
  · simp only [hpre, if_false, List.length_eq_zero_iff, List.filter_eq_nil_iff, decide_eq_true_eq]
    intro i _ hi
    exact hpre ((List.prefix_append p [i]).trans hi)

theorem printed_append (l l' : List (Tok P)) : printed (l ++ l') = printed l ++ printed l' := by simp [printed]

namespace CExec
variable {cfg : Config K P} (E : CExec cfg)

/-- Session `t`, which knew `E.V t s`, saw the value `v` of key `k`, as of instant `σ`, until instant `n`. -/
structure SawBy (t s n : Nat) (k : K) (v : Option P) (σ : Nat) : Prop where
  le : σ ≤ n
  val : E.A σ k = v
  fresh : ∀ τ0, Trail E.M (E.V t s) [] (nibs (cfg.hash k)) .root τ0 → τ0 ≤ σ

theorem SawBy.of_learnt {n : Nat} (H : Hist cfg E.A E.M n) {t s : Nat} {V' : Loc → Nat} {p : List (Fin 16)} {ℓ : Loc} {w : Word} {τ σ : Nat}
    (hl : Learnt E.M n (E.V t s) V' p ℓ w τ σ) (hτ : τ ≤ n) {k : K} (hk : p <+: nibs (cfg.hash k)) {v : Option P}
    (hv : (E.M n).leafVal cfg k w = some v) : E.SawBy t s n k v σ := by
  have hσ := hl.le
  have h := H.inv σ (by omega)
  have hleaf := leafVal_leaf hv
  have hok := hl.live.1.wordOK h
  have hv' := H.leafVal (x := σ) (by omega) (Nat.le_refl n) hok hv
  obtain ⟨ns, hns⟩ := hk
  refine ⟨by omega, hl.live.value h ⟨ns, hns⟩ hv', ?_⟩
  intro τ0 ht
  rw [← hns] at ht
  exact hl.fresh ns τ0 (Or.inr hleaf) ht

/-- How far has the printer got with key `k`? -/
def KeyInv (t s n : Nat) (x : Printer P) (k : K) : Prop :=
  (onWay (E.M n) (nibs (cfg.hash k)) x.todo = 1 ∧ ofKey cfg k (printed x.out) = []) ∨
  (onWay (E.M n) (nibs (cfg.hash k)) x.todo = 0 ∧ ∃ v σ, E.SawBy t s n k v σ ∧ ofKey cfg k (printed x.out) = v.toList)

end CExec

/-- The elements are written at once. -/
theorem Prints.plain {mem : Nat → Mem P} {s : Nat} {V : Loc → Nat} {n : Nat} {x : Printer P} (h : Prints mem s V n x) :
    ∀ k, .text k ∈ x.todo → printed [k] = [] := by
  induction h with
  | start => intro k hk; simp at hk
  | wait h ih => exact ih
  | write h hf ht ih => exact fun k hk => ih k (by rw [ht]; exact List.mem_cons_of_mem _ hk)
  | crash h hf ht hm ih => exact ih
  | @load n τ x ℓ w rest h hf ht hm hτ hv hw ih =>
    intro k hk
    simp only [Printer.load] at hk
    split at hk
    · exact ih k hk
    · next out todo hp =>
      rcases List.mem_append.1 hk with hk1 | hk1
      · clear hk
        simp only [printWord] at hp
        split at hp
        · cases hp; cases hk1
        · split at hp
          · split at hp
            · cases hp
            · cases hp; cases hk1
          · split at hp
            · cases hp
              simp only [loopOver, List.mem_append, List.mem_flatMap, List.mem_cons, List.not_mem_nil, or_false, reduceCtorEq,
                Todo.text.injEq] at hk1
              rcases hk1 with ⟨i, -, rfl⟩ | rfl <;> rfl
            · cases hp
      · exact ih k (by rw [ht]; exact List.mem_cons_of_mem _ hk1)

namespace CExec
variable {cfg : Config K P} (E : CExec cfg)

/-- The invariant of a printer. -/
structure PrintInv (t s n : Nat) (x : Printer P) : Prop where
  le : ∀ ℓ, x.view ℓ ≤ n
  cells : ∀ ℓ, .cell ℓ ∈ x.todo → ∃ q, Reached E.M n (E.V t s) x.view q ℓ
  keys : ∀ k, E.KeyInv t s n x k

theorem path_at {n : Nat} {q : List (Fin 16)} {ℓ : Loc} (h : LocAt (E.M n) 0 ℓ q) : pathOf (E.M n) ℓ = q := by
  cases ℓ with
  | root => exact h.symm
  | slot a i =>
    obtain ⟨c, p, h1, h2, -⟩ := h
    simp only [pathOf, h1, h2]

theorem PrintInv.wait {t s n : Nat} {x : Printer P} (h : E.PrintInv t s n x) (hn : n < E.len) : E.PrintInv t s (n + 1) x where
  le := fun ℓ => Nat.le_succ_of_le (h.le ℓ)
  cells := by
    intro ℓ hℓ
    obtain ⟨q, h1⟩ := h.cells ℓ hℓ
    exact ⟨q, h1.mono (fun _ => Nat.le_refl _) (Nat.le_succ _)⟩
  keys := by
    intro k
    have H := (E.cinv (Nat.succ_le_of_lt hn)).hist
    have e : onWay (E.M (n + 1)) (nibs (cfg.hash k)) x.todo = onWay (E.M n) (nibs (cfg.hash k)) x.todo := by
      refine onWay_congr (fun ℓ hℓ => ?_)
      obtain ⟨q, h1⟩ := h.cells ℓ hℓ
      rw [E.path_at (h1.chain.locAt (E.cinv (Nat.le_of_lt hn)).hist h.le),
        E.path_at ((h1.mono (fun _ => Nat.le_refl _) (Nat.le_succ n)).chain.locAt H (fun ℓ => Nat.le_succ_of_le (h.le ℓ)))]
    simp only [KeyInv, e]
    rcases h.keys k with h1 | ⟨h1, v, σ, h2, h3⟩
    · exact .inl h1
    · exact .inr ⟨h1, v, σ, ⟨by have := h2.le; omega, h2.val, h2.fresh⟩, h3⟩

theorem PrintInv.load {t s n τ : Nat} {x : Printer P} {ℓ : Loc} {w : Word} {rest : List (Todo P)} (h : E.PrintInv t s n x) (hn : n ≤ E.len) (hf : (x.load (E.st n).m rest ℓ w τ).failed = none)
    (ht : x.todo = .cell ℓ :: rest) (hτ : τ ≤ n)
    (hv : x.view ℓ ≤ τ) (hw : (E.st τ).m.read ℓ = some w) : E.PrintInv t s n (x.load (E.st n).m rest ℓ w τ) := by
  have hI := E.cinv hn
  have H := hI.hist
  obtain ⟨q, hr⟩ := h.cells ℓ (by rw [ht]; exact List.mem_cons_self)
  have hl := hr.chain.locAt H h.le
  have hrdM : (E.M τ).read ℓ = some w := by
    simp only [M]
    rw [← thaw_read]
    · exact hw
    · intro a hna
      cases ℓ with
      | root => cases hna
      | slot b i =>
        cases hna
        cases hf : (E.st τ).m.freed a with
        | false => rfl
        | true => simp [Mem.read, Mem.deref, hf] at hw
  have hat := H.at_read hτ hl hrdM
  have hok : WordOK cfg (E.M n) w q := H.wordOK hτ (Nat.le_refl n) (hat.wordOK (H.inv τ hτ))
  have hmono : ∀ ℓ', x.view ℓ' ≤ upd x.view ℓ τ ℓ' := by
    intro ℓ'
    by_cases e : ℓ' = ℓ
    · subst e; rw [upd_same]; exact hv
    · rw [upd_other _ _ e]
  have hle : ∀ ℓ', upd x.view ℓ τ ℓ' ≤ n := by
    intro ℓ'
    by_cases e : ℓ' = ℓ
    · subst e; rw [upd_same]; exact hτ
    · rw [upd_other _ _ e]; exact h.le ℓ'
  obtain ⟨σ, hlearn⟩ := hr.read H h.le (V' := upd x.view ℓ τ) hmono hv hτ (by rw [upd_same]) hat
  have hrest : ∀ ℓ', .cell ℓ' ∈ rest → ∃ q, Reached E.M n (E.V t s) (upd x.view ℓ τ) q ℓ' := by
    intro ℓ' h'
    obtain ⟨q', h1⟩ := h.cells ℓ' (by rw [ht]; exact List.mem_cons_of_mem _ h')
    exact ⟨q', h1.mono hmono (Nat.le_refl _)⟩
  have hpath := E.path_at hl
  -- a leaf
  have leaf : ∀ (out : List (Tok P)) (l : List P), printed out = l → w.isLeaf → (∀ k, (E.M n).leafVal cfg k w = some (l.find? (fun p => decide (cfg.key p = k)))) →
      (l.map cfg.key).Nodup → (∀ p ∈ l, q <+: nibs (cfg.hash (cfg.key p))) →
      E.PrintInv t s n ⟨[] ++ rest, x.out ++ out, upd x.view ℓ τ, x.loads + 1, x.failed⟩ := by
    intro out l ho hwl hlv hnd hpre
    refine ⟨hle, hrest, ?_⟩
    intro k
    have hk := h.keys k
    simp only [KeyInv, ht, onWay, hpath] at hk
    simp only [KeyInv, List.nil_append, printed_append, ofKey_append, ho]
    by_cases hq : q <+: nibs (cfg.hash k)
    · simp only [hq, if_true] at hk
      rcases hk with ⟨h1, h2⟩ | ⟨h1, -⟩
      · refine .inr ⟨by omega, _, σ, SawBy.of_learnt E H hlearn hτ hq (hlv k), ?_⟩
        rw [h2, ofKey_find hnd]; rfl
      · omega
    · simp only [hq, if_false, Nat.zero_add] at hk
      have : ofKey cfg k l = [] := by
        simp only [ofKey, List.filter_eq_nil_iff, decide_eq_true_eq]
        rintro p hp rfl
        exact hq (hpre p hp)
      rw [this, List.append_nil]
      exact hk
  simp only [Printer.load, printWord] at hf ⊢
  cases hw' : w.ptr with
  | none =>
    exact leaf [.word w] [] rfl (Or.inl hw') (fun k => by rw [leafVal_null hw']; rfl) List.nodup_nil (fun p hp => by cases hp)
  | some a =>
    rw [hw'] at hf
    simp only at hf ⊢
    cases hd : w.data with
    | true =>
      rw [hd] at hf
      obtain ⟨l, h1, h2⟩ := hok.of_data hw' hd
      simp only [if_true] at hf ⊢
      cases hld : (E.st n).m.loadData w with
      | error f => rw [hld] at hf; cases hf
      | ok l' =>
        have : l' = l := by
          have h1' : (E.st n).m.mem a = some (.data l) := h1
          simp only [Mem.loadData, hd, hw', Mem.deref, Bool.true_eq_false, if_false, h1'] at hld
          split at hld
          · next hx =>
            split at hx
            · cases hx
            · cases hx; cases hld; rfl
          · cases hld
        subst this
        simp only
        exact leaf _ l' (by simp [printed]) (Or.inr hd) (fun k => leafVal_data hw' hd h1) h2.nodup h2.pre
    | false =>
      rw [hd] at hf
      obtain ⟨c, h1⟩ := hok.of_inner hw' hd
      simp only [Bool.false_eq_true, if_false] at hf ⊢
      cases hdr : (E.st n).m.deref a with
      | none => rw [hdr] at hf; cases hf
      | some nd => cases nd with
      | data l => rw [hdr] at hf; cases hf
      | inner c' p' =>
        simp only
        refine ⟨hle, ?_, ?_⟩
        · intro ℓ' h'
          rcases List.mem_append.1 h' with h' | h'
          · have : ∃ i, ℓ' = .slot a i := by
              simp only [loopOver, List.mem_append, List.mem_flatMap, List.mem_cons, List.not_mem_nil, or_false, reduceCtorEq, false_or,
                Todo.cell.injEq] at h'
              obtain ⟨i, -, rfl⟩ := h'
              exact ⟨i, rfl⟩
            obtain ⟨i, rfl⟩ := this
            exact ⟨_, hlearn.down a i hw' hd⟩
          · exact hrest ℓ' h'
        · intro k
          have hk := h.keys k
          have hlen := ((H.inv n (Nat.le_refl _)).nodeOK a c q h1).1
          have : ofKey cfg k (printed ([.word w, .opening] : List (Tok P))) = [] := rfl
          simp only [KeyInv, ht, onWay, hpath] at hk
          simp only [KeyInv, printed_append, ofKey_append, this, List.append_nil, onWay_append, onWay_loop h1 (h := nibs (cfg.hash k)) (by simpa using hlen)]
          exact hk

theorem printInv {t s n : Nat} {x : Printer P} (h : E.PrintsShape t s n x) (hf : x.failed = none) : E.PrintInv t s n x := by
  obtain ⟨hn, -, hr⟩ := h
  induction hr with
  | start =>
    refine ⟨fun ℓ => E.V_le hn t ℓ, ?_, ?_⟩
    · intro ℓ hℓ
      simp only [List.mem_singleton, Todo.cell.injEq] at hℓ
      subst hℓ
      exact ⟨[], Reached.root (fun _ => Nat.le_refl _)⟩
    · intro k
      exact .inl ⟨by simp [onWay, pathOf], rfl⟩
  | wait h ih => exact (ih hf (by omega)).wait E (by omega)
  | @write n x k rest h hf' ht ih =>
    have h1 := ih hf' hn
    refine ⟨h1.le, fun ℓ hℓ => h1.cells ℓ (by rw [ht]; exact List.mem_cons_of_mem _ hℓ), ?_⟩
    intro key
    have hk := h1.keys key
    have hno := h.plain k (by rw [ht]; exact List.mem_cons_self)
    simp only [KeyInv, ht, onWay] at hk
    simp only [KeyInv, printed_append, hno, List.append_nil]
    exact hk
  | @crash n x ℓ rest h hf' ht hm ih => cases hf
  | @load n τ x ℓ w rest h hf' ht hm hτ hv hw ih => exact (ih hf' hn).load E hn hf ht hτ hv hw

variable {E}

/-- One who knew of an update sees it. -/
theorem SawBy.after {t s n : Nat} {k : K} {v : Option P} {σ : Nat} (h : E.SawBy t s n k v σ) (hn : n ≤ E.len) (hs : s ≤ n) {i : Nat} {lp : LP K P} (hi : i < E.len)
    (hw : E.W i = some lp) (hk : lp.op.key cfg.key = k) (hkn : E.Knows t s lp.id) : i < σ ∧ i < s := by
  obtain ⟨t', j, r, weak, τ, hj, hlab, hres, hhb⟩ := hkn
  obtain ⟨hjs, hview⟩ := E.hb hhb (by simp only; omega)
  simp only at hjs hview
  obtain ⟨t3, weak3, τ3, c, g1, g2, g3, g4, g5, -⟩ := E.ret hj hres
  rw [hlab] at g1; cases g1
  obtain ⟨t4, weak4, c4, a1, a2, a3, a4, a5, a6, a7, a8⟩ := E.W_ok hi hw
  have hij := E.W_res hi hw hj hres
  rw [hk] at a8
  rw [a6] at g5
  injection g5 with g5 _
  subst g5
  exact ⟨h.fresh (i + 1) ((a8.mono (E.V_mono t4 (by omega) hj)).mono hview), by omega⟩

variable (E)

/-- What one who looked at a key, as of instant `σ`, had a look at. -/
theorem glimpseBy {t s n : Nat} (hn : n ≤ E.len) (hs : s ≤ n) {k : K} {v : Option P} {σ : Nat} (h : E.SawBy t s n k v σ) :
    GlimpseBy cfg.key (E.Knows t s) (E.lin n) n (fun k' => k' = k) (E.A σ) := by
  have hσ := h.le
  -- one who knew of something sees it
  have known : ∀ (y : SOp K P) (τ' : Nat), τ' < n → y.op.key cfg.key = k → E.Knows t s y.id → E.Item n τ' y →
      τ' ≤ σ ∧ (E.W τ' = some ⟨y.id, y.op, y.ret⟩ → τ' < σ) := by
    intro y τ' hlt hk hkn hi
    obtain ⟨t', j, r, weak, τ, hj, hlab, hres, hhb⟩ := id hkn
    obtain ⟨hjs, hview⟩ := E.hb hhb (by simp only; omega)
    simp only at hjs hview
    obtain ⟨t3, weak3, τ3, c, g1, g2, g3, g4, g5, -⟩ := E.ret hj hres
    rw [hlab] at g1; cases g1
    have up : E.W τ' = some ⟨y.id, y.op, y.ret⟩ → τ' < σ := fun hw => (h.after hn hs (by omega) hw hk hkn).1
    refine ⟨?_, up⟩
    cases hi with
    | read hr =>
      obtain ⟨v', ⟨t4, j4, r4, req4, a1, a2, a3, a4, a5⟩, -⟩ := hr.saw
      have := E.res_unique hj (by omega) hres a4
      subst this
      rw [a1] at g5
      injection g5 with g5 _
      subst g5
      rw [hk] at a5
      exact h.fresh τ' (a5.trail.mono hview)
    | upd hw => exact Nat.le_of_lt (up hw)
  have past : ∀ (x : SOp K P) (τ' : Nat), τ' < n → E.Item n τ' x → x.Updates → x.id < n := by
    intro x τ' h1 h2 hu
    exact (E.linAt_facts hn h1 h2).1
  rcases Nat.eq_or_lt_of_le hσ with he | hlt
  · subst he
    refine ⟨E.lin σ, [], by simp, E.legal_aux hn σ (Nat.le_refl _), (fun y hy => by cases hy), ?_⟩
    intro x hx hu
    obtain ⟨τ', h1, h2⟩ := List.mem_flatMap.mp hx
    exact past x τ' (List.mem_range.mp h1) (E.linAt_item h2) hu
  · have e1 : List.range n = List.range σ ++ (σ :: (List.range (n - (σ + 1))).map (fun x => (σ + 1) + x)) := by
      have : List.range n = List.range (σ + 1) ++ (List.range (n - (σ + 1))).map (fun x => (σ + 1) + x) := by
        rw [← List.range_add]; congr 1; omega
      rw [this, List.range_succ, List.append_assoc]; rfl
    refine ⟨(List.range σ).flatMap (E.linAt n) ++ E.readsAt n σ (List.range n),
      ((E.W σ).map (fun lp => (⟨lp.id, lp.op, lp.ret⟩ : SOp K P))).toList ++
      ((List.range (n - (σ + 1))).map (fun x => (σ + 1) + x)).flatMap (E.linAt n), ?_, ?_, ?_, ?_⟩
    · rw [lin]
      have e3 : (List.range n).flatMap (E.linAt n) =
          (List.range σ ++ (σ :: (List.range (n - (σ + 1))).map (fun x => (σ + 1) + x))).flatMap (E.linAt n) := by rw [← e1]
      rw [e3, List.flatMap_append, List.flatMap_cons]
      simp only [linAt, List.append_assoc]
    · exact (E.legal_aux hn σ (by omega)).append (E.reads_legal _ _)
    · intro y hy hk hkn
      rcases List.mem_append.mp hy with hy | hy
      · simp only [Option.mem_toList, Option.map_eq_some_iff] at hy
        obtain ⟨lp, hw, rfl⟩ := hy
        have := (known _ σ hlt hk hkn (.upd hw)).2 hw
        omega
      · obtain ⟨τ', h1, h2⟩ := List.mem_flatMap.mp hy
        simp only [List.mem_map, List.mem_range] at h1
        obtain ⟨x, h3, h4⟩ := h1
        have := (known y τ' (by omega) hk hkn (E.linAt_item h2)).1
        omega
    · intro x hx hu
      rcases List.mem_append.mp hx with hx | hx
      · obtain ⟨τ', h1, h2⟩ := List.mem_flatMap.mp hx
        have h1 := List.mem_range.mp h1
        exact past x τ' (by omega) (E.linAt_item h2) hu
      · exact past x σ hlt (.read (E.readOf_some (E.mem_readsAt.mp hx).2).2) hu

end CExec
end Contrie
