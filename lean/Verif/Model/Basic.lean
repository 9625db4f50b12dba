/-
Basic vocabulary of the model: texts, outcomes, byte offsets.
-/

namespace DP

/-- Rust `String` / `&str`, as the sequence of its characters. Byte offsets are recovered with
`byteLen` / `slice` below, since the code mixes character counts with byte offsets. -/
abbrev Str := List Char

open Lean in
/-- `c!"abc"` is the literal character list `['a', 'b', 'c']`. -/
macro:max "c!" s:str : term => do
  let elems := (s.getString.toList.map (fun c => Syntax.mkCharLit c)).toArray
  `(([ $elems,* ] : List Char))

/-- Outcome of a Rust call: `Ok(a)`, `Err(e)`, a panic, or not finished. In a fuelled function
`diverge` means "fuel exhausted"; in the limit (`limit` below) it means that the call never returns. -/
inductive Out (ε α : Type) where
  | ok (a : α)
  | err (e : ε)
  | panic
  | diverge
deriving Repr, DecidableEq

namespace Out

/-- The `?` operator / sequencing. -/
def bind {ε α β : Type} : Out ε α → (α → Out ε β) → Out ε β
  | ok a, f => f a
  | err e, _ => err e
  | panic, _ => panic
  | diverge, _ => diverge

/-- `Result::map_err` -/
def mapErr {ε ε' α : Type} (g : ε → ε') : Out ε α → Out ε' α
  | ok a => ok a
  | err e => err (g e)
  | panic => panic
  | diverge => diverge

instance (ε : Type) : Monad (Out ε) where
  pure := ok
  bind := bind

end Out

open Classical in
/-- The fuel-free meaning of a fuelled call: its result for any sufficient amount of fuel, or
`diverge` if no amount is sufficient. -/
noncomputable def limit {ε α : Type} (f : Nat → Out ε α) : Out ε α :=
  if h : ∃ n, f n ≠ .diverge then f (choose h) else .diverge

/-- `str::len()`: number of bytes of the UTF-8 encoding. -/
def byteLen : Str → Nat
  | [] => 0
  | c :: cs => c.utf8Size + byteLen cs

/-- `&t[a..]` for a byte offset `a`; `none` is the panic (out of range / inside a character). -/
def dropBytes : Nat → Str → Option Str
  | 0, t => some t
  | _ + 1, [] => none
  | n + 1, c :: cs => if c.utf8Size ≤ n + 1 then dropBytes (n + 1 - c.utf8Size) cs else none

/-- `&t[..b]` for a byte offset `b`; `none` is the panic. -/
def takeBytes : Nat → Str → Option Str
  | 0, _ => some []
  | _ + 1, [] => none
  | n + 1, c :: cs =>
    if c.utf8Size ≤ n + 1 then (takeBytes (n + 1 - c.utf8Size) cs).map (c :: ·) else none

/-- `&t[a..b]` for byte offsets; `none` is the panic. -/
def slice (t : Str) (a b : Nat) : Option Str :=
  if a ≤ b then (dropBytes a t).bind (takeBytes (b - a)) else none

end DP
