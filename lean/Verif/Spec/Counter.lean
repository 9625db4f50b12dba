/-
Independent specification: machines with two counters.
-/
import Verif.Model.Basic

namespace DP.Spec

/-- one instruction: count up, or count down unless the counter is zero; `second` says which counter -/
inductive Instr where
  | inc (second : Bool) (next : Nat)
  | dec (second : Bool) (next ifZero : Nat)

/-- the number of the next instruction, and the two counters -/
structure Moment where
  at_ : Nat
  a : Nat
  b : Nat

/-- what an instruction does -/
inductive Ticks (P : List Instr) : Moment → Moment → Prop
  | incA {i a b j} : P[i]? = some (.inc false j) → Ticks P ⟨i, a, b⟩ ⟨j, a + 1, b⟩
  | incB {i a b j} : P[i]? = some (.inc true j) → Ticks P ⟨i, a, b⟩ ⟨j, a, b + 1⟩
  | decA {i a b j z} : P[i]? = some (.dec false j z) → Ticks P ⟨i, a + 1, b⟩ ⟨j, a, b⟩
  | decB {i a b j z} : P[i]? = some (.dec true j z) → Ticks P ⟨i, a, b + 1⟩ ⟨j, a, b⟩
  | zeroA {i b j z} : P[i]? = some (.dec false j z) → Ticks P ⟨i, 0, b⟩ ⟨z, 0, b⟩
  | zeroB {i a j z} : P[i]? = some (.dec true j z) → Ticks P ⟨i, a, 0⟩ ⟨z, a, 0⟩

/-- there is no instruction of that number: the machine has halted -/
def Halted (P : List Instr) (m : Moment) : Prop := P.length ≤ m.at_

/-- the machine halts when it is started at that moment -/
inductive HaltsFrom (P : List Instr) : Moment → Prop
  | now {m} : Halted P m → HaltsFrom P m
  | later {m m'} : Ticks P m m' → HaltsFrom P m' → HaltsFrom P m

/-- a moment as a text: "sss" for instruction 2, an "a" or "b" for each unit of the counters, and "#" -/
def Moment.text (m : Moment) : Str :=
  List.replicate (m.at_ + 1) 's' ++ (List.replicate m.a 'a' ++ (List.replicate m.b 'b' ++ ['#']))

/-- the text of all moments from `m` until the machine halts -/
inductive History (P : List Instr) : Moment → Str → Prop
  | last {m} : Halted P m → History P m m.text
  | step {m m' s} : Ticks P m m' → History P m' s → History P m (m.text ++ s)

end DP.Spec
