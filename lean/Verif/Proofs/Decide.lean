/-
Decidable equality of trees and expressions (used only to evaluate concrete examples in the kernel).
-/
import Verif.Model.Parser

namespace DP

mutual
def Node.decEq : (a b : Node) → Decidable (a = b)
  | .val a, .val b => if h : a = b then isTrue (by rw [h]) else isFalse (by simpa using h)
  | .eof, .eof => isTrue rfl
  | .rule n a, .rule m b =>
    if h : n = m then
      match Node.decEqL a b with
      | isTrue h' => isTrue (by rw [h, h'])
      | isFalse h' => isFalse (by simp [h'])
    else isFalse (by simp [h])
  | .val _, .eof => isFalse (by simp)
  | .val _, .rule _ _ => isFalse (by simp)
  | .eof, .val _ => isFalse (by simp)
  | .eof, .rule _ _ => isFalse (by simp)
  | .rule _ _, .val _ => isFalse (by simp)
  | .rule _ _, .eof => isFalse (by simp)
def Node.decEqL : (a b : List Node) → Decidable (a = b)
  | [], [] => isTrue rfl
  | [], _ :: _ => isFalse (by simp)
  | _ :: _, [] => isFalse (by simp)
  | a :: as, b :: bs =>
    match Node.decEq a b, Node.decEqL as bs with
    | isTrue h, isTrue h' => isTrue (by rw [h, h'])
    | isFalse h, _ => isFalse (by simp [h])
    | _, isFalse h => isFalse (by simp [h])
end

instance : DecidableEq Node := Node.decEq

mutual
def Expr.decEq : (a b : Expr) → Decidable (a = b)
  | .simple a, .simple b => if h : a = b then isTrue (by rw [h]) else isFalse (by simpa using h)
  | .and a, .and b =>
    match Expr.decEqL a b with
    | isTrue h => isTrue (by rw [h])
    | isFalse h => isFalse (by simpa using h)
  | .or a, .or b =>
    match Expr.decEqL a b with
    | isTrue h => isTrue (by rw [h])
    | isFalse h => isFalse (by simpa using h)
  | .not a, .not b =>
    match Expr.decEq a b with
    | isTrue h => isTrue (by rw [h])
    | isFalse h => isFalse (by simpa using h)
  | .rep a n m, .rep b n' m' =>
    match Expr.decEq a b, _root_.decEq (n, m) (n', m') with
    | isTrue h, isTrue h' => isTrue (by cases h'; rw [h])
    | isFalse h, _ => isFalse (by simp [h])
    | _, isFalse h => isFalse (by intro h'; cases h'; exact h rfl)
  | .ruleName a, .ruleName b => if h : a = b then isTrue (by rw [h]) else isFalse (by simpa using h)
  | .simple _, .and _ | .simple _, .or _ | .simple _, .not _ | .simple _, .rep .. | .simple _, .ruleName _
  | .and _, .simple _ | .and _, .or _ | .and _, .not _ | .and _, .rep .. | .and _, .ruleName _
  | .or _, .simple _ | .or _, .and _ | .or _, .not _ | .or _, .rep .. | .or _, .ruleName _
  | .not _, .simple _ | .not _, .and _ | .not _, .or _ | .not _, .rep .. | .not _, .ruleName _
  | .rep .., .simple _ | .rep .., .and _ | .rep .., .or _ | .rep .., .not _ | .rep .., .ruleName _
  | .ruleName _, .simple _ | .ruleName _, .and _ | .ruleName _, .or _ | .ruleName _, .not _
  | .ruleName _, .rep .. => isFalse (by simp)
def Expr.decEqL : (a b : List Expr) → Decidable (a = b)
  | [], [] => isTrue rfl
  | [], _ :: _ => isFalse (by simp)
  | _ :: _, [] => isFalse (by simp)
  | a :: as, b :: bs =>
    match Expr.decEq a b, Expr.decEqL as bs with
    | isTrue h, isTrue h' => isTrue (by rw [h, h'])
    | isFalse h, _ => isFalse (by simp [h])
    | _, isFalse h => isFalse (by simp [h])
end

instance : DecidableEq Expr := Expr.decEq

end DP
