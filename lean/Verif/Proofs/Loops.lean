/-
Programs of loops over registers compute every partial recursive function. (For C78.)
-/
import Mathlib.Computability.PartrecBasis

namespace DP.Reg

/-- programs over registers: do nothing, count up, one after the other, and count down and repeat until zero -/
inductive Prog where
  | skip
  | inc (r : Nat)
  | seq (p q : Prog)
  | loop (r : Nat) (p : Prog)

/-- what the registers contain -/
abbrev Regs := Nat → Nat

def Regs.set (σ : Regs) (r x : Nat) : Regs := fun i => if i = r then x else σ i

theorem set_same (σ : Regs) (r x : Nat) : σ.set r x r = x := by simp [Regs.set]
theorem set_other (σ : Regs) {r i : Nat} (x : Nat) (h : i ≠ r) : σ.set r x i = σ i := by simp [Regs.set, h]

inductive Runs : Prog → Regs → Regs → Prop
  | skip {σ} : Runs .skip σ σ
  | inc {r σ} : Runs (.inc r) σ (σ.set r (σ r + 1))
  | seq {p q σ τ υ} : Runs p σ τ → Runs q τ υ → Runs (.seq p q) σ υ
  | done {r p σ} : σ r = 0 → Runs (.loop r p) σ σ
  | more {r p σ τ υ x} : σ r = x + 1 → Runs p (σ.set r x) τ → Runs (.loop r p) τ υ → Runs (.loop r p) σ υ

/-- From `σ` the program ends if and only if there is a value in `F`; then that is in register `out`, and the other registers below
`k` are as before. -/
structure Puts (p : Prog) (σ : Regs) (out k : Nat) (F : Part Nat) : Prop where
  ends : F.Dom → ∃ τ, Runs p σ τ
  value : ∀ τ, Runs p σ τ → τ out ∈ F
  frame : ∀ τ, Runs p σ τ → ∀ r < k, r ≠ out → τ r = σ r

theorem runs_det {p σ τ τ'} (h : Runs p σ τ) (h' : Runs p σ τ') : τ = τ' := by
  induction h generalizing τ' with
  | skip => cases h'; rfl
  | inc => cases h'; rfl
  | seq _ _ ih1 ih2 =>
    cases h' with
    | seq h1 h2 => cases ih1 h1; exact ih2 h2
  | done h0 =>
    cases h' with
    | done _ => rfl
    | more h1 _ _ => omega
  | more h0 _ _ ih1 ih2 =>
    cases h' with
    | done h1 => omega
    | more h1 h2 h3 =>
      obtain rfl := Nat.succ.inj (h0.symm.trans h1)
      cases ih1 h2
      exact ih2 h3

/-- a program that ends, with what it leaves -/
theorem puts_of {p σ out k x τ} (h : Runs p σ τ) (hx : τ out = x) (hf : ∀ r < k, r ≠ out → τ r = σ r) : Puts p σ out k (Part.some x) where
  ends _ := ⟨τ, h⟩
  value τ' h' := by cases runs_det h h'; simp [hx]
  frame τ' h' := by cases runs_det h h'; exact hf

theorem puts_total {p σ out k x} (h : Puts p σ out k (Part.some x)) : ∃ τ, Runs p σ τ ∧ τ out = x ∧ ∀ r < k, r ≠ out → τ r = σ r := by
  obtain ⟨τ, hτ⟩ := h.ends trivial
  exact ⟨τ, hτ, by simpa using h.value τ hτ, h.frame τ hτ⟩

/-! ### Small programs -/

def clear (r : Nat) : Prog := .loop r .skip

theorem runs_clear (r : Nat) (σ : Regs) : Runs (clear r) σ (σ.set r 0) := by
  generalize hx : σ r = x
  induction x generalizing σ with
  | zero =>
    have : σ.set r 0 = σ := by funext i; by_cases h : i = r <;> simp [Regs.set, h, hx]
    rw [this]
    exact .done hx
  | succ x ih =>
    have h := ih (σ.set r x) (set_same _ _ _)
    have : (σ.set r x).set r 0 = σ.set r 0 := by funext i; by_cases h : i = r <;> simp [Regs.set, h]
    rw [this] at h
    exact .more hx .skip h

/-- add register `a` to `b` and to `t`, and clear it -/
theorem runs_move2 {a b t : Nat} (hab : a ≠ b) (hat : a ≠ t) (hbt : b ≠ t) (σ : Regs) :
    Runs (.loop a (.seq (.inc b) (.inc t))) σ (((σ.set a 0).set b (σ b + σ a)).set t (σ t + σ a)) := by
  generalize hx : σ a = x
  induction x generalizing σ with
  | zero =>
    have : ((σ.set a 0).set b (σ b + 0)).set t (σ t + 0) = σ := by
      funext i
      simp only [Regs.set]
      grind
    rw [this]
    exact .done hx
  | succ x ih =>
    refine .more hx (.seq .inc .inc) ?_
    have h := ih (((σ.set a x).set b ((σ.set a x) b + 1)).set t (((σ.set a x).set b ((σ.set a x) b + 1)) t + 1)) (by
      simp [Regs.set, hab, hat])
    convert h using 1
    funext i
    simp only [Regs.set]
    grind

/-- add register `t` to `a`, and clear it -/
theorem runs_move {t a : Nat} (h : t ≠ a) (σ : Regs) : Runs (.loop t (.inc a)) σ ((σ.set t 0).set a (σ a + σ t)) := by
  generalize hx : σ t = x
  induction x generalizing σ with
  | zero =>
    have : (σ.set t 0).set a (σ a + 0) = σ := by
      funext i
      simp only [Regs.set]
      grind
    rw [this]
    exact .done hx
  | succ x ih =>
    refine .more hx .inc ?_
    have h' := ih ((σ.set t x).set a ((σ.set t x) a + 1)) (by simp [Regs.set, h])
    convert h' using 1
    funext i
    simp only [Regs.set]
    grind

/-- copy register `a` to `b`, with the help of `t` -/
def copy (a b t : Nat) : Prog :=
  .seq (clear b) (.seq (clear t) (.seq (.loop a (.seq (.inc b) (.inc t))) (.loop t (.inc a))))

theorem runs_copy {a b t : Nat} (hab : a ≠ b) (hat : a ≠ t) (hbt : b ≠ t) (σ : Regs) : Runs (copy a b t) σ ((σ.set b (σ a)).set t 0) := by
  have h := Runs.seq (runs_clear b σ) (.seq (runs_clear t _) (.seq (runs_move2 hab hat hbt _) (runs_move hat.symm _)))
  have e : ∀ υ υ' : Regs, υ = υ' → Runs (copy a b t) σ υ' → Runs (copy a b t) σ υ := fun _ _ h => h ▸ id
  refine e _ _ ?_ h
  funext i
  simp only [Regs.set]
  grind

/-! ### Primitive recursive functions -/

/-- the values of some registers -/
def vals {n : Nat} (σ : Regs) (ins : _root_.Fin n → Nat) : List.Vector Nat n := List.Vector.ofFn fun i => σ (ins i)

/-- wherever the arguments and the result shall be, there is a program that computes the function -/
def Programmed {n : Nat} (f : List.Vector Nat n →. Nat) : Prop :=
  ∀ (ins : _root_.Fin n → Nat) (out k : Nat), (∀ i, ins i < k) → out < k → (∀ i, ins i ≠ out) → ∃ p, ∀ σ, Puts p σ out k (f (vals σ ins))

theorem vals_congr {n : Nat} {σ τ : Regs} {ins : _root_.Fin n → Nat} (h : ∀ i, τ (ins i) = σ (ins i)) : vals τ ins = vals σ ins := by
  unfold vals
  congr 1
  funext i
  exact h i

/-- one program for each of the first `m` functions -/
def chain (ps : Nat → Prog) : Nat → Prog
  | 0 => .skip
  | m + 1 => .seq (chain ps m) (ps m)

theorem runs_chain_inv {ps : Nat → Prog} {k : Nat} {F : Nat → Regs → Part Nat} (n : Nat)
    (hF : ∀ i < n, ∀ σ τ : Regs, (∀ r < k, τ r = σ r) → F i τ = F i σ)
    (hp : ∀ i < n, ∀ σ, Puts (ps i) σ (k + i) (k + n) (F i σ)) (σ : Regs) : ∀ m ≤ n,
    ((∀ i < m, (F i σ).Dom) → ∃ τ, Runs (chain ps m) σ τ) ∧
    ∀ τ, Runs (chain ps m) σ τ → (∀ r < k, τ r = σ r) ∧ ∀ i < m, τ (k + i) ∈ F i σ := by
  intro m
  induction m with
  | zero =>
    intro _
    refine ⟨fun _ => ⟨σ, .skip⟩, fun τ h => ?_⟩
    cases h
    exact ⟨fun _ _ => rfl, fun i hi => absurd hi (Nat.not_lt_zero _)⟩
  | succ m ih =>
    intro hm
    obtain ⟨ih1, ih2⟩ := ih (by omega)
    constructor
    · intro hd
      obtain ⟨τ, hτ⟩ := ih1 fun i hi => hd i (by omega)
      have he := (hp m (by omega) τ).ends (by rw [hF m (by omega) σ τ (ih2 τ hτ).1]; exact hd m (by omega))
      obtain ⟨υ, hυ⟩ := he
      exact ⟨υ, .seq hτ hυ⟩
    · intro υ h
      cases h with
      | @seq _ _ _ τ _ h1 h2 =>
        obtain ⟨h3, h4⟩ := ih2 τ h1
        have hv := (hp m (by omega) τ).value υ h2
        have hf := (hp m (by omega) τ).frame υ h2
        rw [hF m (by omega) σ τ h3] at hv
        constructor
        · intro r hr
          rw [hf r (by omega) (by omega), h3 r hr]
        · intro i hi
          by_cases he : i = m
          · subst he; exact hv
          · rw [hf (k + i) (by omega) (by omega)]
            exact h4 i (by omega)

theorem mem_mOfFn {n : Nat} (g : _root_.Fin n → Part Nat) (v : List.Vector Nat n) :
    v ∈ List.Vector.mOfFn g ↔ ∀ i, v.get i ∈ g i := by
  induction n with
  | zero => simp [List.Vector.mOfFn, Part.pure_eq_some, Part.mem_some_iff, List.Vector.eq_nil v]
  | succ n ih =>
    simp only [List.Vector.mOfFn, Part.bind_eq_bind, Part.mem_bind_iff, Part.pure_eq_some, Part.mem_some_iff]
    constructor
    · rintro ⟨a, ha, w, hw, rfl⟩ i
      refine _root_.Fin.cases ?_ (fun i => ?_) i
      · simpa using ha
      · simpa using (ih _ w).1 hw i
    · intro h
      refine ⟨v.head, by simpa using h 0, v.tail, (ih _ _).2 fun i => by simpa using h i.succ, by simp⟩

theorem programmed_comp {m n : Nat} {f : List.Vector Nat n →. Nat} (g : _root_.Fin n → List.Vector Nat m →. Nat)
    (hf : Programmed f) (hg : ∀ i, Programmed (g i)) : Programmed fun v => (List.Vector.mOfFn fun i => g i v) >>= f := by
  intro ins out k hins hout hne
  have hgi : ∀ i : Nat, ∃ p, ∀ hi : i < n, ∀ σ, Puts p σ (k + i) (k + n) (g ⟨i, hi⟩ (vals σ ins)) := by
    intro i
    by_cases hi : i < n
    · obtain ⟨p, hp⟩ := hg ⟨i, hi⟩ ins (k + i) (k + n) (fun j => by have := hins j; omega) (by omega) (fun j => by have := hins j; omega)
      exact ⟨p, fun _ => hp⟩
    · exact ⟨.skip, fun h => absurd h hi⟩
  choose ps hps using hgi
  obtain ⟨pf, hpf⟩ := hf (fun i => k + i) out (k + n) (fun i => by have := i.2; omega) (by omega) (fun i => by omega)
  refine ⟨.seq (chain ps n) pf, fun σ => ?_⟩
  obtain ⟨h1, h2⟩ := runs_chain_inv (ps := ps) (k := k) (F := fun i σ => if hi : i < n then g ⟨i, hi⟩ (vals σ ins) else Part.none) n
    (fun i hi σ τ h => by simp only [hi, dif_pos]; rw [vals_congr fun j => h _ (hins j)])
    (fun i hi σ => by simp only [hi, dif_pos]; exact hps i hi σ) σ n (Nat.le_refl n)
  have hv : ∀ τ, Runs (chain ps n) σ τ → vals τ (fun i : _root_.Fin n => k + i) ∈ List.Vector.mOfFn fun i => g i (vals σ ins) := by
    intro τ hτ
    rw [mem_mOfFn]
    intro i
    have := (h2 τ hτ).2 i i.2
    simpa [vals] using this
  constructor
  · intro hd
    obtain ⟨x, hx⟩ := Part.dom_iff_mem.1 hd
    obtain ⟨v, hv1, hv2⟩ := Part.mem_bind_iff.1 hx
    obtain ⟨τ, hτ⟩ := h1 fun i hi => by
      simp only [hi, dif_pos]
      exact Part.dom_iff_mem.2 ⟨_, (mem_mOfFn _ v).1 hv1 ⟨i, hi⟩⟩
    have := Part.mem_unique (hv τ hτ) hv1
    obtain ⟨υ, hυ⟩ := (hpf τ).ends (by rw [this]; exact Part.dom_iff_mem.2 ⟨x, hv2⟩)
    exact ⟨υ, .seq hτ hυ⟩
  · intro υ h
    cases h with
    | @seq _ _ _ τ _ h3 h4 =>
      exact Part.mem_bind_iff.2 ⟨_, hv τ h3, (hpf τ).value υ h4⟩
  · intro υ h r hr hro
    cases h with
    | @seq _ _ _ τ _ h3 h4 =>
      rw [(hpf τ).frame υ h4 r (by omega) hro, (h2 τ h3).1 r hr]

theorem programmed_prec {n : Nat} {f : List.Vector Nat n → Nat} {g : List.Vector Nat (n + 2) → Nat}
    (hf : Programmed fun v => Part.some (f v)) (hg : Programmed fun v => Part.some (g v)) :
    Programmed fun v : List.Vector Nat (n + 1) => Part.some (v.head.rec (f v.tail) fun y IH => g (y ::ᵥ IH ::ᵥ v.tail)) := by
  intro ins out k hins hout hne
  -- k: how many rounds were made, k + 1: how many remain, k + 2: the next result, k + 3: to copy
  obtain ⟨pf, hpf⟩ := hf (fun i => ins i.succ) out (k + 4) (fun i => by have := hins i.succ; omega) (by omega) (fun i => hne _)
  obtain ⟨pg, hpg⟩ := hg (_root_.Fin.cons k (_root_.Fin.cons out fun i => ins i.succ)) (k + 2) (k + 4)
    (fun i => by
      refine _root_.Fin.cases ?_ (fun i => _root_.Fin.cases ?_ (fun i => ?_) i) i
      · simp
      · simp; omega
      · have := hins i.succ; simp; omega)
    (by omega)
    (fun i => by
      refine _root_.Fin.cases ?_ (fun i => _root_.Fin.cases ?_ (fun i => ?_) i) i
      · simp
      · simp; omega
      · have := hins i.succ; simp; omega)
  refine ⟨.seq pf (.seq (copy (ins 0) (k + 1) (k + 3)) (.seq (clear k) (.loop (k + 1) (.seq pg (.seq (copy (k + 2) out (k + 3)) (.inc k)))))), fun σ => ?_⟩
  have h0 := hins 0
  have hn0 := hne 0
  obtain ⟨σ1, r1, v1, f1⟩ := puts_total (hpf σ)
  have r2 := runs_copy (a := ins 0) (b := k + 1) (t := k + 3) (by omega) (by omega) (by omega) σ1
  have r3 := runs_clear k ((σ1.set (k + 1) (σ1 (ins 0))).set (k + 3) 0)
  have loops : ∀ (x y : Nat) (τ : Regs), τ (k + 1) = x → τ k = y → x + y = σ (ins 0) → (∀ r < k, r ≠ out → τ r = σ r) →
      τ out = Nat.rec (f (vals σ fun i => ins i.succ)) (fun y IH => g (y ::ᵥ IH ::ᵥ (vals σ fun i => ins i.succ))) y →
      ∃ υ, Runs (.loop (k + 1) (.seq pg (.seq (copy (k + 2) out (k + 3)) (.inc k)))) τ υ ∧
        υ out = Nat.rec (f (vals σ fun i => ins i.succ)) (fun y IH => g (y ::ᵥ IH ::ᵥ (vals σ fun i => ins i.succ))) (σ (ins 0)) ∧
        ∀ r < k, r ≠ out → υ r = σ r := by
    intro x
    induction x with
    | zero =>
      intro y τ hx hy he hfr hv
      rw [Nat.zero_add] at he
      subst he
      exact ⟨τ, .done hx, hv, hfr⟩
    | succ x ih =>
      intro y τ hx hy he hfr hv
      obtain ⟨τ1, s1, w1, g1⟩ := puts_total (hpg (τ.set (k + 1) x))
      have s2 := runs_copy (a := k + 2) (b := out) (t := k + 3) (by omega) (by omega) (by omega) τ1
      have hvals : vals (τ.set (k + 1) x) (_root_.Fin.cons k (_root_.Fin.cons out fun i => ins i.succ)) =
          (y ::ᵥ (τ out) ::ᵥ (vals σ fun i => ins i.succ) : List.Vector Nat (n + 2)) := by
        refine List.Vector.ext fun i => ?_
        refine _root_.Fin.cases ?_ (fun i => _root_.Fin.cases ?_ (fun i => ?_) i) i
        · simp [vals, Regs.set, hy]
        · rw [List.Vector.get_cons_succ, List.Vector.get_cons_zero]
          simp only [vals, List.Vector.get_ofFn, _root_.Fin.cons_succ, _root_.Fin.cons_zero]
          exact set_other _ _ (by omega)
        · have h1 := hins i.succ
          have h2 := hne i.succ
          simp only [vals, List.Vector.get_ofFn]
          simp [Regs.set]
          rw [if_neg (by omega)]
          exact hfr _ h1 h2
      obtain ⟨υ, t1, t2, t3⟩ := ih (y + 1) (((τ1.set out (τ1 (k + 2))).set (k + 3) 0).set k (((τ1.set out (τ1 (k + 2))).set (k + 3) 0) k + 1))
        (by
          have := g1 (k + 1) (by omega) (by omega)
          simp only [Regs.set] at *
          grind)
        (by
          have := g1 k (by omega) (by omega)
          simp only [Regs.set] at *
          grind)
        (by omega)
        (by
          intro r hr hro
          have := g1 r (by omega) (by omega)
          have := hfr r hr hro
          simp only [Regs.set] at *
          grind)
        (by
          rw [hvals, hv] at w1
          simp only [Regs.set]
          rw [if_neg (by omega), if_neg (by omega)]
          simpa using w1)
      exact ⟨υ, .more hx (.seq s1 (.seq s2 .inc)) t1, t2, t3⟩
  obtain ⟨υ, t1, t2, t3⟩ := loops (σ (ins 0)) 0 (((σ1.set (k + 1) (σ1 (ins 0))).set (k + 3) 0).set k 0) (by
      have := f1 (ins 0) (by omega) hn0
      simp only [Regs.set]
      grind) (by simp [Regs.set]) (by omega)
    (by
      intro r hr hro
      have := f1 r (by omega) hro
      simp only [Regs.set]
      grind)
    (by
      rw [set_other _ _ (by omega), set_other _ _ (by omega), set_other _ _ (by omega)]
      exact v1)
  have hh : (vals σ ins).head = σ (ins 0) := by simp [vals]
  have ht : (vals σ ins).tail = vals σ fun i => ins i.succ := by simp [vals, List.Vector.tail_ofFn]
  refine puts_of (.seq r1 (.seq r2 (.seq r3 t1))) ?_ t3
  rw [hh, ht]
  exact t2

theorem programmed_prim {n : Nat} {f : List.Vector Nat n → Nat} (h : Nat.Primrec' f) : Programmed fun v => Part.some (f v) := by
  induction h with
  | zero =>
    intro ins out k _ _ _
    refine ⟨clear out, fun σ => puts_of (runs_clear out σ) (set_same _ _ _) fun r _ h => set_other _ _ h⟩
  | succ =>
    intro ins out k hins hout hne
    have h1 := hins 0
    have h2 := hne 0
    refine ⟨.seq (copy (ins 0) out k) (.inc out), fun σ => puts_of (.seq (runs_copy h2 (by omega) (by omega) σ) .inc) ?_ ?_⟩
    · rw [set_same, set_other _ _ (by omega), set_same]
      simp [vals]
    · intro r hr hro
      simp only [Regs.set]
      grind
  | get i =>
    intro ins out k hins hout hne
    have h1 := hins i
    have h2 := hne i
    refine ⟨copy (ins i) out k, fun σ => puts_of (runs_copy h2 (by omega) (by omega) σ) ?_ ?_⟩
    · rw [set_other _ _ (by omega), set_same]
      simp [vals]
    · intro r hr hro
      simp only [Regs.set]
      grind
  | @comp m n f g _ _ ihf ihg =>
    have h := programmed_comp (f := fun v => Part.some (f v)) (fun i v => Part.some (g i v)) ihf ihg
    have e : (fun v => (List.Vector.mOfFn fun i => Part.some (g i v)) >>= fun v => Part.some (f v)) =
        fun v => Part.some (f (List.Vector.ofFn fun i => g i v)) := by
      funext v
      have := List.Vector.mOfFn_pure (m := Part) fun i => g i v
      simp only [Part.pure_eq_some] at this
      rw [this]
      simp
    rwa [e] at h
  | prec _ _ ihf ihg => exact programmed_prec ihf ihg

/-! ### Partial recursive functions -/

theorem programmed_rfind {n : Nat} {f : List.Vector Nat (n + 1) → Nat} (hf : Programmed fun v => Part.some (f v)) :
    Programmed fun v : List.Vector Nat n => Nat.rfind fun x => Part.some (decide (f (x ::ᵥ v) = 0)) := by
  intro ins out k hins hout hne
  obtain ⟨pf, hpf⟩ := hf (_root_.Fin.cons out ins) k (k + 1)
    (fun i => by
      refine _root_.Fin.cases ?_ (fun i => ?_) i
      · simp; omega
      · have := hins i; simp; omega)
    (by omega)
    (fun i => by
      refine _root_.Fin.cases ?_ (fun i => ?_) i
      · simp; omega
      · have := hins i; simp; omega)
  refine ⟨.seq (clear out) (.seq pf (.loop k (.seq (.inc out) pf))), fun σ => ?_⟩
  have hvals : ∀ (τ : Regs) (x : Nat), τ out = x → (∀ r < k, r ≠ out → τ r = σ r) → vals τ (_root_.Fin.cons out ins) = x ::ᵥ vals σ ins := by
    intro τ x h1 h2
    refine List.Vector.ext fun i => ?_
    refine _root_.Fin.cases ?_ (fun i => ?_) i
    · simp [vals, h1]
    · simp [vals]
      exact h2 _ (hins i) (hne i)
  -- what holds at the beginning of each round
  have after : ∀ (x : Nat) (τ τ' : Regs), τ out = x → (∀ r < k, r ≠ out → τ r = σ r) → Runs pf τ τ' →
      τ' out = x ∧ (∀ r < k, r ≠ out → τ' r = σ r) ∧ τ' k = f (x ::ᵥ vals σ ins) := by
    intro x τ τ' h1 h2 h3
    have hv := (hpf τ).value τ' h3
    have hfr := (hpf τ).frame τ' h3
    rw [hvals τ x h1 h2, Part.mem_some_iff] at hv
    refine ⟨by rw [hfr out (by omega) (by omega), h1], fun r hr hro => by rw [hfr r (by omega) (by omega), h2 r hr hro], hv⟩
  have runpf : ∀ τ, ∃ τ', Runs pf τ τ' := fun τ => (hpf τ).ends trivial
  have inv : ∀ τ υ, Runs (.loop k (.seq (.inc out) pf)) τ υ → ∀ x, τ out = x → (∀ r < k, r ≠ out → τ r = σ r) → τ k = f (x ::ᵥ vals σ ins) →
      (∀ m < x, f (m ::ᵥ vals σ ins) ≠ 0) →
      υ out ∈ (Nat.rfind fun x => Part.some (decide (f (x ::ᵥ vals σ ins) = 0))) ∧ ∀ r < k, r ≠ out → υ r = σ r := by
    intro τ υ h
    generalize hl : Prog.loop k (.seq (.inc out) pf) = l at h
    induction h with
    | skip | inc | seq => cases hl
    | @done r p τ h0 =>
      cases hl
      intro x h1 h2 h3 h4
      refine ⟨Nat.mem_rfind.2 ⟨?_, fun {m} hm => ?_⟩, h2⟩
      · rw [h1, Part.mem_some_iff, ← h3, h0]; rfl
      · have := h4 m (by omega)
        simp [this]
    | @more r p τ τ' υ y h0 hb _ ih1 ih2 =>
      cases hl
      intro x h1 h2 h3 h4
      cases hb with
      | seq ha hb =>
        cases ha with
        | inc =>
          obtain ⟨a1, a2, a3⟩ := after (x + 1) _ τ' (by rw [set_same, set_other _ _ (by omega), h1])
            (fun r hr hro => by rw [set_other _ _ hro, set_other _ _ (by omega), h2 r hr hro]) hb
          refine ih2 rfl (x + 1) a1 a2 a3 fun m hm => ?_
          by_cases hx : m = x
          · subst hx; omega
          · exact h4 m (by omega)
  have ends : ∀ (d x : Nat) (τ : Regs), f ((x + d) ::ᵥ vals σ ins) = 0 → τ out = x → (∀ r < k, r ≠ out → τ r = σ r) →
      τ k = f (x ::ᵥ vals σ ins) → ∃ υ, Runs (.loop k (.seq (.inc out) pf)) τ υ := by
    intro d
    induction d with
    | zero =>
      intro x τ h0 h1 h2 h3
      exact ⟨τ, .done (by rw [h3]; exact h0)⟩
    | succ d ih =>
      intro x τ h0 h1 h2 h3
      cases hk : τ k with
      | zero => exact ⟨τ, .done hk⟩
      | succ y =>
        obtain ⟨τ', h4⟩ := runpf (Regs.set (τ.set k y) out (τ.set k y out + 1))
        obtain ⟨a1, a2, a3⟩ := after (x + 1) _ τ' (by rw [set_same, set_other _ _ (by omega), h1])
          (fun r hr hro => by rw [set_other _ _ hro, set_other _ _ (by omega), h2 r hr hro]) h4
        obtain ⟨υ, h5⟩ := ih (x + 1) τ' (by rw [show x + 1 + d = x + (d + 1) from by omega]; exact h0) a1 a2 a3
        exact ⟨υ, .more hk (.seq .inc h4) h5⟩
  have start : ∀ τ', Runs pf (σ.set out 0) τ' → τ' out = 0 ∧ (∀ r < k, r ≠ out → τ' r = σ r) ∧ τ' k = f (0 ::ᵥ vals σ ins) := fun τ' h =>
    after 0 _ τ' (set_same _ _ _) (fun r hr hro => set_other _ _ hro) h
  have split : ∀ υ, Runs (.seq (clear out) (.seq pf (.loop k (.seq (.inc out) pf)))) σ υ →
      ∃ τ', Runs pf (σ.set out 0) τ' ∧ Runs (.loop k (.seq (.inc out) pf)) τ' υ := by
    intro υ h
    cases h with
    | seq h1 h2 =>
      cases runs_det h1 (runs_clear out σ)
      cases h2 with
      | seq h3 h4 => exact ⟨_, h3, h4⟩
  constructor
  · intro hd
    obtain ⟨y, hy⟩ := Part.dom_iff_mem.1 hd
    have hy := (Nat.mem_rfind.1 hy).1
    rw [Part.mem_some_iff] at hy
    obtain ⟨τ', h1⟩ := runpf (σ.set out 0)
    obtain ⟨a1, a2, a3⟩ := start τ' h1
    obtain ⟨υ, h2⟩ := ends y 0 τ' (by rw [Nat.zero_add]; simpa using hy.symm) a1 a2 a3
    exact ⟨υ, .seq (runs_clear out σ) (.seq h1 h2)⟩
  · intro υ h
    obtain ⟨τ', h1, h2⟩ := split υ h
    obtain ⟨a1, a2, a3⟩ := start τ' h1
    exact (inv τ' υ h2 0 a1 a2 a3 (by simp)).1
  · intro υ h
    obtain ⟨τ', h1, h2⟩ := split υ h
    obtain ⟨a1, a2, a3⟩ := start τ' h1
    exact (inv τ' υ h2 0 a1 a2 a3 (by simp)).2

/-- every partial recursive function is computed by a program of loops -/
theorem programmed_part {n : Nat} {f : List.Vector Nat n →. Nat} (h : Nat.Partrec' f) : Programmed f := by
  induction h with
  | prim h => exact programmed_prim h
  | comp g _ _ ihf ihg => exact programmed_comp g ihf ihg
  | rfind _ ih => exact programmed_rfind ih

end DP.Reg
